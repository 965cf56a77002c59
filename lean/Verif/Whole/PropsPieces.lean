import Verif.Whole.Lemmas
import Verif.PreTok.ByteRows
import Verif.Regex.PropsCuts

/-!
# C100: an encoding is what the model gives for the pieces of the normalized text
-/

namespace Tok.Whole

open Tok.Norm Tok.PreTok Tok.Regex

/-! ### Specification -/

/-- The normalizer of the tokenizer, if any, makes `u` of the text `s`, with alignments that belong to it. -/
def Normalizes (t : Tk) (s u : Str) : Prop :=
  (t.normalizer = none ∧ u = s) ∨
    (∃ f, t.normalizer = some f ∧ ∀ x, FPart s [] s x → ∃ n, f x = .ok n ∧ WF n ∧ n.normalized = encStr u) ∨
    (s = [] ∧ u = [])

/-- The pre-tokenizer, if any, cuts a text into the pieces `g` gives. -/
def CutsInto (t : Tk) (g : Str → List Str) : Prop :=
  (t.preTokenizer = none ∧ ∀ s, g s = [s]) ∨ ∃ p, t.preTokenizer = some p ∧ CutsTexts p g

/-- What there is to tokenize of a text `s` that is normalized to `u`: nothing if one of them is empty. -/
def piecesOf (g : Str → List Str) (s u : Str) : List Str := if s = [] ∨ u = [] then [] else g u

/-- The model gives the tokens `tok w` for the piece `w`: at least one, with offsets in order. -/
def ModelGives (t : Tk) (tok : Str → List Token) (w : Str) : Prop :=
  ∃ f, t.model = some f ∧ f (encStr w) = .ok (some (tok w)) ∧ tok w ≠ [] ∧
    ∀ x ∈ tok w, 0 ≤ x.offsets.1 ∧ x.offsets.1 ≤ x.offsets.2

/-! ### Lemmas -/

theorem split_none_wf {re : MatchingSet} {u : Str} (h : re.engine (encStr u) = []) (hu : u ≠ []) {x : NStr}
    (hx : x.normalized = encStr u) (hw : WF x) :
    ∃ y, splitWithIndices re x = .ok [⟨some y, none⟩] ∧ WF y ∧ y.normalized = encStr u := by
  have hpos := length_pos_of_ne hu
  obtain ⟨y, h1, h2, h3⟩ := slice_ok hw hx (a := 0) (b := blen u) ⟨[], u, rfl, rfl⟩ ⟨u, [], by simp, rfl⟩ hpos
  have ht : y.normalized = encStr u := by
    rw [h2.text, hx]
    have := cutOut_enc [] u []
    simpa using this
  refine ⟨y, ?_, h3, ht⟩
  have h1' : x.slice ⟨0, ((blen u : Nat) : Int), .normalized⟩ = .ok (some y) := by simpa using h1
  simp only [splitWithIndices, hx, h, length_encStr, findMatches]
  rw [if_neg (by omega)]
  have h0 : ¬ 0 = blen u := by omega
  simp [selectMatches, fillGaps, h0, sliceMatches, h1']

theorem split_empty {re : MatchingSet} {x : NStr} (hx : x.normalized = []) :
    ∃ y, splitWithIndices re x = .ok [⟨some y, none⟩] ∧ y.normalized = [] := by
  have h0 : ∀ {α : Type} (l : List α), slc l 0 0 = .ok [] := by
    intro α l
    simp [slc]
  have h : ∃ y, x.slice ⟨0, 0, .normalized⟩ = .ok (some y) ∧ y.normalized = [] := by
    simp [NStr.slice, NStr.validate, NStr.convert, Rng.full, hx, NStr.range, NStr.rangeOriginal, h0]
  obtain ⟨y, h1, h2⟩ := h
  refine ⟨y, ?_, h2⟩
  simp only [splitWithIndices, hx, List.length_nil, findMatches, if_true, Res.bind_ok, sliceMatches, Int.natCast_zero, h1]

theorem extract_normalizes {t : Tk} {s u : Str} (hn : Normalizes t s u) (h1 : t.splitRe.engine (encStr s) = [])
    (h2 : t.splitNormalizedRe.engine (encStr u) = []) (hs : s ≠ []) :
    (u = [] → t.extractAndNormalize (encStr s) = .ok ⟨encStr s, []⟩) ∧
    (u ≠ [] → ∃ y, t.extractAndNormalize (encStr s) = .ok ⟨encStr s, [⟨y, none⟩]⟩ ∧ WF y ∧ y.normalized = encStr u) := by
  obtain ⟨x, k1, k2⟩ := split_none h1 hs (fpart_whole s)
  have hx : x.normalized ≠ [] := by rw [fpart_text k2]; exact enc_ne hs
  obtain ⟨n, e1, e2, e3⟩ : ∃ n, t.normalizeOrDie x = .ok n ∧ WF n ∧ n.normalized = encStr u := by
    rcases hn with ⟨h, rfl⟩ | ⟨f, hf, h⟩ | ⟨h, _⟩
    · exact ⟨x, by simp only [Tk.normalizeOrDie, h], (fpart_partOf k2).2.2, fpart_text k2⟩
    · obtain ⟨n, e1, e2, e3⟩ := h x k2
      exact ⟨n, by simp only [Tk.normalizeOrDie, hf, e1], e2, e3⟩
    · exact absurd h hs
  constructor
  · intro hu
    subst hu
    obtain ⟨y, f1, f2⟩ := split_empty (re := t.splitNormalizedRe) (x := n) (by simpa using e3)
    simp [Tk.extractAndNormalize, PTS.split, newPTS, splitLoop, k1, keepPieces, hx, e1, f1, f2]
  · intro hu
    obtain ⟨y, f1, f2, f3⟩ := split_none_wf h2 hu e3 e2
    refine ⟨y, ?_, f2, f3⟩
    have hy : y.normalized ≠ [] := by rw [f3]; exact enc_ne hu
    simp [Tk.extractAndNormalize, PTS.split, newPTS, splitLoop, k1, keepPieces, hx, e1, f1, hy]

theorem tokenizeLoop_pieces {fn : NStr → Res (Option (List Token))} {tok : Str → List Token} (ps : List Str) :
    ∀ ss : List Split, ss.map (fun sp => (sp.normalized.normalized, sp.tokens)) = ps.map (fun w => (encStr w, none)) →
      (∀ w ∈ ps, ∀ n : NStr, n.normalized = encStr w → fn n = .ok (some (tok w))) →
      ∃ ss', tokenizeLoop fn ss = .ok ss' ∧ ss'.map (·.tokens) = ps.map (fun w => some (tok w)) ∧
        ss'.map (·.normalized) = ss.map (·.normalized) := by
  induction ps with
  | nil =>
    intro ss h _
    have : ss = [] := by simpa using h
    subst this
    exact ⟨[], rfl, rfl, rfl⟩
  | cons w ps ih =>
    intro ss h hf
    cases ss with
    | nil => cases h
    | cons sp ss =>
      rw [List.map_cons, List.map_cons, List.cons.injEq, Prod.mk.injEq] at h
      obtain ⟨⟨e1, e2⟩, e3⟩ := h
      obtain ⟨ss', k1, k2, k3⟩ := ih ss e3 (fun v hv => hf v (by simp [hv]))
      refine ⟨⟨sp.normalized, some (tok w)⟩ :: ss', ?_, by simp [k2], by simp [k3]⟩
      simp only [tokenizeLoop, e2, hf w (by simp) _ e1, k1, Res.bind_ok]

theorem allTokens_map {tok : Str → List Token} {ps : List Str} {ss : List Split}
    (h : ss.map (·.tokens) = ps.map (fun w => some (tok w))) : allTokens ss = ps.flatMap tok := by
  induction ps generalizing ss with
  | nil =>
    have : ss = [] := by simpa using h
    subst this
    rfl
  | cons w ps ih =>
    cases ss with
    | nil => cases h
    | cons sp ss =>
      rw [List.map_cons, List.map_cons, List.cons.injEq] at h
      have := ih h.2
      simp only [allTokens] at this
      simp only [allTokens, List.flatMap_cons, h.1, Option.getD_some, this]

theorem wordsFrom_map {tok : Str → List Token} {ps : List Str} {ss : List Split} (i : Nat)
    (h : ss.map (·.tokens) = ps.map (fun w => some (tok w))) :
    wordsFrom (-1) ss i = (ps.zipIdx i).flatMap (fun p => List.replicate (tok p.1).length ((p.2 : Nat) : Int)) := by
  induction ps generalizing ss i with
  | nil =>
    have : ss = [] := by simpa using h
    subst this
    rfl
  | cons w ps ih =>
    cases ss with
    | nil => cases h
    | cons sp ss =>
      rw [List.map_cons, List.map_cons, List.cons.injEq] at h
      simp only [wordsFrom, h.1, Option.getD_some, if_true, List.zipIdx_cons, List.flatMap_cons, ih (i + 1) h.2]

theorem doTokenize_fn (t : Tk) : ∃ fn : NStr → Res (Option (List Token)),
    (∀ f, t.model = some f → ∀ n, fn n = f n.normalized) ∧
    ∀ pt typeId word ot, t.doTokenize pt typeId word ot = (pt.tokenize fn >>= fun p => p.intoEncoding typeId word ot) := by
  refine ⟨_, ?_, fun pt typeId word ot => rfl⟩
  intro f hf n
  simp only [hf]

theorem pieces_ready {t : Tk} {s u : Str} {g : Str → List Str} (hn : Normalizes t s u)
    (h1 : t.splitRe.engine (encStr s) = []) (h2 : t.splitNormalizedRe.engine (encStr u) = []) (hg : CutsInto t g) :
    ∃ pt pt', t.extractAndNormalize (encStr s) = .ok pt ∧ t.doPreTokenize pt = .ok pt' ∧
      Holding pt' ((piecesOf g s u).map (fun w => (w, none))) := by
  obtain ⟨pt, e1, e2⟩ : ∃ pt, t.extractAndNormalize (encStr s) = .ok pt ∧
      Holding pt (if s = [] ∨ u = [] then [] else [(u, none)]) := by
    by_cases hs : s = []
    · subst hs
      refine ⟨⟨[], []⟩, by rw [encStr_nil]; exact extract_nil t, ?_⟩
      rw [if_pos (Or.inl rfl)]
      exact ⟨rfl, by simp, by simp⟩
    · obtain ⟨k1, k2⟩ := extract_normalizes hn h1 h2 hs
      by_cases hu : u = []
      · rw [if_pos (Or.inr hu)]
        exact ⟨_, k1 hu, ⟨rfl, by simp, by simp⟩⟩
      · rw [if_neg (by simp [hs, hu])]
        obtain ⟨y, e1, e2, e3⟩ := k2 hu
        refine ⟨_, e1, ⟨by simp [e3], by simp [hu], ?_⟩⟩
        intro sp hsp
        simp only [List.mem_singleton] at hsp
        subst hsp
        exact e2
  obtain ⟨pt', e3, e4⟩ : ∃ pt', t.doPreTokenize pt = .ok pt' ∧
      Holding pt' ((piecesOf g s u).map (fun w => (w, none))) := by
    rcases hg with ⟨h, hg⟩ | ⟨p, h, hg⟩
    · refine ⟨pt, by simp only [Tk.doPreTokenize, h], ?_⟩
      unfold piecesOf
      split
      · next hc => rw [if_pos hc] at e2; exact e2
      · next hc => rw [if_neg hc] at e2; rw [hg]; exact e2
    · obtain ⟨pt', k1, _, k2⟩ := hg pt _ e2
      refine ⟨pt', by simp only [Tk.doPreTokenize, h, k1], ?_⟩
      unfold piecesOf
      split
      · next hc => rw [if_pos hc] at k2; exact k2
      · next hc => rw [if_neg hc] at k2; simpa [cutOne] using k2
  exact ⟨pt, pt', e1, e3, e4⟩

theorem tokenizeLoop_fails {fn : NStr → Res (Option (List Token))} {m : Str → Res (Option (List Token))}
    (ps : List Str) : ∀ ss : List Split,
      ss.map (fun sp => (sp.normalized.normalized, sp.tokens)) = ps.map (fun w => (encStr w, none)) →
      (∀ w ∈ ps, m w ≠ .panic ∧ ∀ n : NStr, n.normalized = encStr w → fn n = m w) →
      (∃ w ∈ ps, m w = .err ∨ m w = .ok none ∨ m w = .ok (some [])) →
      tokenizeLoop fn ss = .err ∨
        ∃ ss', tokenizeLoop fn ss = .ok ss' ∧ ∃ sp ∈ ss', sp.tokens = none ∨ sp.tokens = some [] := by
  induction ps with
  | nil => rintro ss _ _ ⟨w, hw, _⟩; cases hw
  | cons w ps ih =>
    intro ss h hf hbad
    cases ss with
    | nil => cases h
    | cons sp ss =>
      rw [List.map_cons, List.map_cons, List.cons.injEq, Prod.mk.injEq] at h
      obtain ⟨⟨e1, e2⟩, e3⟩ := h
      obtain ⟨k1, k2⟩ := hf w (by simp)
      simp only [tokenizeLoop, e2, k2 _ e1]
      cases hw : m w with
      | panic => exact absurd hw k1
      | err => exact Or.inl rfl
      | ok o =>
        simp only [Res.bind_ok]
        have hrest : tokenizeLoop fn ss = .err ∨ ∃ ss', tokenizeLoop fn ss = .ok ss' := by
          clear hbad ih
          induction ps generalizing ss with
          | nil =>
            have : ss = [] := by simpa using e3
            subst this
            exact Or.inr ⟨[], rfl⟩
          | cons v ps ih =>
            cases ss with
            | nil => cases e3
            | cons sp' ss =>
              rw [List.map_cons, List.map_cons, List.cons.injEq, Prod.mk.injEq] at e3
              obtain ⟨⟨d1, d2⟩, d3⟩ := e3
              obtain ⟨j1, j2⟩ := hf v (by simp)
              simp only [tokenizeLoop, d2, j2 _ d1]
              cases hv : m v with
              | panic => exact absurd hv j1
              | err => exact Or.inl rfl
              | ok o' =>
                simp only [Res.bind_ok]
                rcases ih (fun x hx => hf x (by
                  rcases List.mem_cons.mp hx with rfl | hx
                  · simp
                  · simp [hx])) ss d3 with h | ⟨ss', h⟩
                · exact Or.inl (by rw [h]; rfl)
                · exact Or.inr ⟨_, by rw [h]; rfl⟩
        by_cases hthis : o = none ∨ o = some []
        · rcases hrest with h | ⟨ss', h⟩
          · exact Or.inl (by rw [h]; rfl)
          · exact Or.inr ⟨_, by rw [h]; rfl, ⟨sp.normalized, o⟩, by simp, hthis⟩
        · obtain ⟨v, hv, hb⟩ := hbad
          rcases List.mem_cons.mp hv with rfl | hv
          · exfalso
            rw [hw] at hb
            rcases hb with hb | hb | hb
            · cases hb
            · cases hb; exact hthis (Or.inl rfl)
            · cases hb; exact hthis (Or.inr rfl)
          · rcases ih ss e3 (fun x hx => hf x (by simp [hx])) ⟨v, hv, hb⟩ with h | ⟨ss', h, sq, h', h''⟩
            · exact Or.inl (by rw [h]; rfl)
            · exact Or.inr ⟨_, by rw [h]; rfl, sq, by simp [h'], h''⟩

/-- The encoding of a text whose pieces are known. -/
theorem held_encode {t : Tk} {s : Str} {pt pt' : PTS} {ps : List Str} {tok : Str → List Token}
    (e1 : t.extractAndNormalize (encStr s) = .ok pt) (e3 : t.doPreTokenize pt = .ok pt')
    (e4 : pt'.splits.map (fun sp => (sp.normalized.normalized, sp.tokens)) = ps.map (fun w => (encStr w, none)))
    (e5 : ∀ sp ∈ pt'.splits, sp.normalized.aligns.length = sp.normalized.normalized.length) (hm : ∀ w ∈ ps, ModelGives t tok w) (typeId : Int) (ot : OffsetType) :
    ∃ e, t.encodeSingle (.raw (encStr s)) typeId ot = .ok e ∧
      e.ids = (ps.flatMap tok).map (·.id) ∧
      e.tokens = (ps.flatMap tok).map (·.value) ∧
      e.words = ps.zipIdx.flatMap (fun p => List.replicate (tok p.1).length ((p.2 : Nat) : Int)) ∧
      ∃ rows, e = ofRows rows typeId := by
  have key : ∃ e, t.encodeOne (encStr s) typeId (-1) ot = .ok e ∧
      e.ids = (ps.flatMap tok).map (·.id) ∧
      e.tokens = (ps.flatMap tok).map (·.value) ∧
      e.words = ps.zipIdx.flatMap (fun p => List.replicate (tok p.1).length ((p.2 : Nat) : Int)) := by
    obtain ⟨fn, hfn, hdo⟩ := doTokenize_fn t
    obtain ⟨ss', k1, k2, k3⟩ := tokenizeLoop_pieces (fn := fn) (tok := tok) (ps) pt'.splits
      e4
      (by
        intro w hw n hnw
        obtain ⟨f, hf, h, _⟩ := hm w hw
        rw [hfn f hf n, hnw, h])
    have hok : ∃ e, PTS.intoEncoding { pt' with splits := ss' } typeId (-1) ot = .ok e := by
      apply C46_ok
      intro sp hsp
      obtain ⟨i, hi, rfl⟩ := List.getElem_of_mem hsp
      have htok := congrArg (fun l => l[i]?) k2
      have hnrm := congrArg (fun l => l[i]?) k3
      simp only [List.getElem?_map, List.getElem?_eq_getElem hi, Option.map_some] at htok hnrm
      obtain ⟨w, hw, hw2⟩ := Option.map_eq_some_iff.mp htok.symm
      obtain ⟨sp, hsp2, hsp3⟩ := Option.map_eq_some_iff.mp hnrm.symm
      have hmem := List.mem_of_getElem? hw
      obtain ⟨f, _, _, hne, hoff⟩ := hm w hmem
      have hpm := List.mem_of_getElem? hsp2
      have hnone : sp.tokens = none := by
        have := congrArg (fun l => l[i]?) e4
        simp only [List.getElem?_map, hsp2, hw, Option.map_some, Option.some.injEq, Prod.mk.injEq] at this
        exact this.2
      have hwf := e5 sp hpm
      rw [← hw2, Option.getD_some, ← hsp3]
      exact ⟨hne, hwf, hoff⟩
    obtain ⟨e, he⟩ := hok
    obtain ⟨f1, f2, f3, _⟩ := C46_entries _ _ _ _ _ he
    refine ⟨e, ?_, ?_, ?_, ?_⟩
    · simp only [Tk.encodeOne, e1, Res.bind_ok, e3, hdo, PTS.tokenize, k1, he]
    · rw [f1, allTokens_map k2]
    · rw [f2, allTokens_map k2]
    · rw [f3, wordsFrom_map 0 k2]
  obtain ⟨e, h3, h4, h5, h6⟩ := key
  obtain ⟨rows, rfl⟩ := encodeOne_ofRows h3
  refine ⟨ofRows rows typeId, ?_, h4, h5, h6, rows, rfl⟩
  simp only [Tk.encodeSingle, h3, Res.bind_ok]
  rw [default_ofRows typeId, show [ofRows rows typeId] = [rows].map (fun r => ofRows r typeId) from rfl, merge_ofRows]
  simp

theorem holding_encode {t : Tk} {s : Str} {pt pt' : PTS} {ps : List Str} {tok : Str → List Token}
    (e1 : t.extractAndNormalize (encStr s) = .ok pt) (e3 : t.doPreTokenize pt = .ok pt')
    (e4 : Holding pt' (ps.map (fun w => (w, none)))) (hm : ∀ w ∈ ps, ModelGives t tok w) (typeId : Int) (ot : OffsetType) :
    ∃ e, t.encodeSingle (.raw (encStr s)) typeId ot = .ok e ∧
      e.ids = (ps.flatMap tok).map (·.id) ∧
      e.tokens = (ps.flatMap tok).map (·.value) ∧
      e.words = ps.zipIdx.flatMap (fun p => List.replicate (tok p.1).length ((p.2 : Nat) : Int)) ∧
      ∃ rows, e = ofRows rows typeId :=
  held_encode e1 e3 (by rw [e4.texts, List.map_map]; rfl) (fun sp hsp => (e4.wf sp hsp).lenA) hm typeId ot

/-! ### C100 -/

/-- C100: if no added token is found in the text, an encoding consists of the tokens that the model gives for
the pieces into which the pre-tokenizer cuts the normalized text, in order; the word of a token is the number of
its piece. -/
theorem C100_pieces (t : Tk) (s u : Str) (g : Str → List Str) (tok : Str → List Token) (hn : Normalizes t s u)
    (h1 : t.splitRe.engine (encStr s) = []) (h2 : t.splitNormalizedRe.engine (encStr u) = []) (hg : CutsInto t g)
    (hm : ∀ w ∈ piecesOf g s u, ModelGives t tok w) (typeId : Int) (ot : OffsetType) :
    ∃ e, t.encodeSingle (.raw (encStr s)) typeId ot = .ok e ∧
      e.ids = ((piecesOf g s u).flatMap tok).map (·.id) ∧
      e.tokens = ((piecesOf g s u).flatMap tok).map (·.value) ∧
      e.words = (piecesOf g s u).zipIdx.flatMap (fun p => List.replicate (tok p.1).length ((p.2 : Nat) : Int)) := by
  obtain ⟨pt, pt', e1, e3, e4⟩ := pieces_ready hn h1 h2 hg
  obtain ⟨e, k1, k2, k3, k4, _⟩ := holding_encode e1 e3 e4 hm typeId ot
  exact ⟨e, k1, k2, k3, k4⟩

/-- C100 (failure): if the model refuses one of the pieces, or has no token for it, there is no encoding of the
text at all: the call fails. -/
theorem C100_fails (t : Tk) (s u : Str) (g : Str → List Str) (f : List UInt8 → Res (Option (List Token)))
    (hf : t.model = some f) (hn : Normalizes t s u)
    (h1 : t.splitRe.engine (encStr s) = []) (h2 : t.splitNormalizedRe.engine (encStr u) = []) (hg : CutsInto t g)
    (hm : ∀ w ∈ piecesOf g s u, f (encStr w) ≠ .panic)
    (hb : ∃ w ∈ piecesOf g s u, f (encStr w) = .err ∨ f (encStr w) = .ok none ∨ f (encStr w) = .ok (some []))
    (typeId : Int) (ot : OffsetType) : t.encodeSingle (.raw (encStr s)) typeId ot = .err := by
  obtain ⟨pt, pt', e1, e3, e4⟩ := pieces_ready hn h1 h2 hg
  obtain ⟨fn, hfn, hdo⟩ := doTokenize_fn t
  have hone : t.encodeOne (encStr s) typeId (-1) ot = .err := by
    simp only [Tk.encodeOne, e1, Res.bind_ok, e3, hdo, PTS.tokenize]
    rcases tokenizeLoop_fails (fn := fn) (m := fun w => f (encStr w)) (piecesOf g s u) pt'.splits
      (by rw [e4.texts, List.map_map]; rfl)
      (fun w hw => ⟨hm w hw, fun n hnw => by rw [hfn f hf n, hnw]⟩) hb with h | ⟨ss', h, sp, h', h''⟩
    · simp only [h, Res.bind_err]
    · simp only [h, Res.bind_ok]
      exact C46_untokenized _ _ _ _ sp h' h''
  simp only [Tk.encodeSingle, hone, Res.bind_err]

/-- C100 (no model): a tokenizer that was given no model reports an error for every text with something to
tokenize, whatever its normalizer and pre-tokenizer; it does not end the process. -/
theorem C100_no_model (t : Tk) (s u : Str) (g : Str → List Str) (hf : t.model = none) (hn : Normalizes t s u)
    (h1 : t.splitRe.engine (encStr s) = []) (h2 : t.splitNormalizedRe.engine (encStr u) = []) (hg : CutsInto t g)
    (hb : piecesOf g s u ≠ []) (typeId : Int) (ot : OffsetType) :
    t.encodeSingle (.raw (encStr s)) typeId ot = .err := by
  obtain ⟨pt, pt', e1, e3, e4⟩ := pieces_ready hn h1 h2 hg
  have hone : t.encodeOne (encStr s) typeId (-1) ot = .err := by
    simp only [Tk.encodeOne, e1, Res.bind_ok, e3, Tk.doTokenize, PTS.tokenize, hf]
    rcases tokenizeLoop_fails (fn := fun _ => .err) (m := fun _ => .err) (piecesOf g s u) pt'.splits
      (by rw [e4.texts, List.map_map]; rfl)
      (fun w hw => ⟨by simp, fun n hnw => rfl⟩)
      (by
        cases hp : piecesOf g s u with
        | nil => exact absurd hp hb
        | cons w ws => exact ⟨w, by simp, Or.inl rfl⟩) with h | ⟨ss', h, sp, h', h''⟩
    · simp only [h, Res.bind_err]
    · simp only [h, Res.bind_ok]
      exact C46_untokenized _ _ _ _ sp h' h''
  simp only [Tk.encodeSingle, hone, Res.bind_err]

/-- C100, violated: if the normalizer reports an error for a text in which no added token is found, the process
ends instead of the call reporting it. -/
theorem C100_normalizer_violated (t : Tk) (s : Str) (f : NStr → Res NStr) (hf : t.normalizer = some f) (hs : s ≠ [])
    (h1 : t.splitRe.engine (encStr s) = []) (hb : ∀ x : NStr, x.normalized = encStr s → f x = .err)
    (typeId : Int) (ot : OffsetType) : t.encodeSingle (.raw (encStr s)) typeId ot = .panic := by
  obtain ⟨x, k1, k2⟩ := split_none h1 hs (fpart_whole s)
  have hx : x.normalized ≠ [] := by rw [fpart_text k2]; exact enc_ne hs
  have e1 : t.normalizeOrDie x = .panic := by
    simp only [Tk.normalizeOrDie, hf, hb x (fpart_text k2)]
  have e2 : t.extractAndNormalize (encStr s) = .panic := by
    simp [Tk.extractAndNormalize, PTS.split, newPTS, splitLoop, k1, keepPieces, hx, e1]
  simp only [Tk.encodeSingle, Tk.encodeOne, e2, Res.bind_panic]

/-- C100 (lower-casing): a normalizer that replaces the text by one of the same number of bytes. -/
theorem normalizes_recase {t : Tk} {s u : Str} {f : List UInt8 → List UInt8}
    (ht : t.normalizer = some (fun n => .ok (n.recase f))) (hf : f (encStr s) = encStr u) (hl : blen u = blen s) :
    Normalizes t s u := by
  refine Or.inr (Or.inl ⟨_, ht, ?_⟩)
  intro x hx
  have hw := (fpart_partOf hx).2.2
  have hx' := fpart_text hx
  have hr : f x.normalized = encStr u := by rw [hx', hf]
  refine ⟨_, rfl, ⟨?_, hw.lenO, hw.within, hw.mono⟩, hr⟩
  show x.aligns.length = (f x.normalized).length
  rw [hw.lenA, hr, hx', length_encStr, length_encStr, hl]

/-! ### A case -/

/-- A tokenizer that lower-cases `A` and `B` and takes every character for a token. -/
def charTk : Tk :=
  { splitRe := ⟨[], fun _ => []⟩, splitNormalizedRe := ⟨[], fun _ => []⟩
    normalizer := some (fun n => .ok (n.recase (fun bs => bs.map (fun b => if b = 65 ∨ b = 66 then b + 32 else b))))
    preTokenizer := none
    model := some (fun bs => .ok (some (bs.zipIdx.map (fun p =>
      (⟨p.1.toNat, [Char.ofNat p.1.toNat], ((p.2 : Int), (p.2 : Int) + 1)⟩ : Token))))) }

/-- "Ab": the tokens are those of "ab". -/
example : ∃ e, charTk.encodeSingle (.raw (encStr ['A', 'b'])) 0 .byte = .ok e ∧ e.ids = [97, 98] ∧
    e.tokens = [['a'], ['b']] ∧ e.words = [0, 0] := by
  obtain ⟨e, h1, h2, h3, h4⟩ := C100_pieces charTk ['A', 'b'] ['a', 'b'] (fun s => [s])
    (fun w => (encStr w).zipIdx.map (fun p =>
      (⟨p.1.toNat, [Char.ofNat p.1.toNat], ((p.2 : Int), (p.2 : Int) + 1)⟩ : Token)))
    (normalizes_recase rfl (by decide +kernel) rfl) rfl rfl (Or.inl ⟨rfl, fun _ => rfl⟩)
    (by
      intro w hw
      have : w = ['a', 'b'] := by simpa [piecesOf] using hw
      subst this
      exact ⟨_, rfl, rfl, by decide +kernel, by decide +kernel⟩) 0 .byte
  exact ⟨e, h1, h2.trans (by decide +kernel), h3.trans (by decide +kernel), h4.trans (by decide +kernel)⟩

/-- A model that has nothing for "b" gives no encoding of "b". -/
example : ({ charTk with model := some (fun _ => .ok none) } : Tk).encodeSingle (.raw (encStr ['b'])) 0 .byte = .err :=
  C100_fails _ ['b'] ['b'] (fun s => [s]) _ rfl (normalizes_recase rfl (by decide +kernel) rfl) rfl rfl
    (Or.inl ⟨rfl, fun _ => rfl⟩) (by simp) ⟨['b'], by simp [piecesOf], by simp⟩ 0 .byte

/-- Without a model there is no encoding of "b" either. -/
example : ({ charTk with model := none } : Tk).encodeSingle (.raw (encStr ['b'])) 0 .byte = .err :=
  C100_no_model _ ['b'] ['b'] (fun s => [s]) rfl (normalizes_recase rfl (by decide +kernel) rfl) rfl rfl
    (Or.inl ⟨rfl, fun _ => rfl⟩) (by simp [piecesOf]) 0 .byte

/-- A normalizer that refuses everything ends the process. -/
example : ({ charTk with normalizer := some (fun _ => .err) } : Tk).encodeSingle (.raw (encStr ['b'])) 0 .byte = .panic :=
  C100_normalizer_violated _ ['b'] _ rfl (by simp) rfl (fun _ _ => rfl) 0 .byte

end Tok.Whole
