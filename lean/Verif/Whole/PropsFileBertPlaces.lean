import Verif.PreTok.PropsFolded
import Verif.PreTok.PropsWordPieceBytes
import Verif.Whole.PropsFileBertPair
import Verif.Whole.PropsFileTrimmed

/-!
# C144: where the tokens of a BERT file are in the text
-/

namespace Tok.Whole

open Tok.Norm Tok.PreTok Tok.Config Tok.Regex

/-! ### Specification -/

/-- The places of the tokens of a text that starts at byte `k`: of the parts between the words there are none, a word has those
of its pieces, one after the other, or its own if it has no pieces. -/
def spotsFrom : Nat → List (Str × Option (Option (List Str))) → List (Int × Int)
  | _, [] => []
  | k, (g, none) :: ps => spotsFrom (k + blen g) ps
  | k, (w, some o) :: ps => spansFrom k (o.getD [w]) ++ spotsFrom (k + blen w) ps

/-- The words among the parts of a text, with their spellings. -/
def wordParts (parts : List (Str × Option (Option (List Str)))) : List (Str × Option (List Str)) :=
  parts.filterMap (fun p => p.2.map (fun o => (p.1, o)))

/-! ### Lemmas -/

/-- The pieces counted in characters. -/
def countSpans : Nat → List Str → List (Nat × Nat)
  | _, [] => []
  | k, q :: qs => (k, k + q.length) :: countSpans (k + q.length) qs

/-- The places that the encoding makes of the pieces of a word that starts at byte `k`. -/
def countedAt (k : Nat) (w : Str) (r : Nat × Nat) : Int × Int :=
  (((k + charStart w r.1 : Nat) : Int), ((k + charEnd w (r.2 - 1) : Nat) : Int))

/-- As `spotsFrom`, with the places that the encoding makes of the pieces. -/
def countedFrom : Nat → List (Str × Option (Option (List Str))) → List (Int × Int)
  | _, [] => []
  | k, (g, none) :: ps => countedFrom (k + blen g) ps
  | k, (w, some o) :: ps => (countSpans 0 (o.getD [w])).map (countedAt k w) ++ countedFrom (k + blen w) ps

theorem bertRe_proper : ProperEngine bertRe.engine := by
  intro m _
  have h := C72_leftmost bertRe (solid_plus (solid_chr isS)) m
  refine ⟨h.ordered, fun p hp => ?_⟩
  obtain ⟨u, w, v, e1, e2, e3, e4, _⟩ := h.matching p hp
  refine ⟨?_, ⟨u, w ++ v, by rw [e1, List.append_assoc], e2⟩, ⟨u ++ w, v, e1, e3⟩⟩
  rw [e2, e3, blen_append]
  have := PreTok.length_le_blen w
  have := List.length_pos_iff.mpr e4
  omega

theorem pieces_counted (m : WordPiece) : ∀ (ps : List (Str × Int)) (first : Bool) (start : Nat),
    (piecesToTokens m first start ps).map (·.offsets) =
      (countSpans start (ps.map (·.1))).map (fun r => ((r.1 : Int), (r.2 : Int))) := by
  intro ps
  induction ps with
  | nil => intro _ _; rfl
  | cons p ps ih =>
    intro first start
    simp only [piecesToTokens, List.map_cons, countSpans, ih]

theorem tokens_counted {wp : WordPiece} {v : List (Str × Int)} {max : Int} (hv : ∀ t, wp.vocab t = mget v t)
    (hpre : wp.pre = ['#', '#']) (hmax : wp.maxChars = max) {w : Str} {ts : List Token} (ht : wp.tokenize w = .ok ts) :
    ∃ o, Spells v max w o ∧ ts.map (·.offsets) = (countSpans 0 (o.getD [w])).map (fun r => ((r.1 : Int), (r.2 : Int))) := by
  by_cases hk : (w.length : Int) ≤ max ∧ ∃ ps, Greedy wp true w ps
  · obtain ⟨hl, ps, hg⟩ := hk
    have h := C34_greedy wp w (by rw [hmax]; exact hl) ps hg
    rw [ht] at h
    cases h
    exact ⟨some (ps.map (fun p : Str × Int => p.1)), ⟨hl, ps, greedy_vocab hv hpre hg, rfl⟩, pieces_counted wp ps true 0⟩
  · have hbad : max < (w.length : Int) ∨ ∀ ps, ¬ Greedy wp true w ps := by
      by_cases hl : (w.length : Int) ≤ max
      · exact .inr (fun ps h => hk ⟨hl, ps, h⟩)
      · exact .inl (by omega)
    have h := C34_unknown wp w (by rw [hmax]; exact hbad)
    rw [ht] at h
    refine ⟨none, ?_, ?_⟩
    · rcases hbad with h | h
      · exact .inl h
      · exact .inr (fun ps hg => h ps (greedy_vocab (fun t => (hv t).symm) hpre.symm hg))
    · cases hu : wp.vocab wp.unk with
      | none => rw [hu] at h; cases h
      | some i =>
        rw [hu] at h
        cases h
        simp [countSpans]

theorem cut_counted {u : Str} {wp : WordPiece} {v : List (Str × Int)} {max : Int} (hv : ∀ t, wp.vocab t = mget v t)
    (hpre : wp.pre = ['#', '#']) (hmax : wp.maxChars = max) {a z : Str} {ss : List Split}
    (h : Cut u true (fun _ _ => False) a z ss)
    (hw : ∀ w : Str, encStr w ∈ ss.map (·.normalized.normalized) → ∃ ts, wp.tokenize w = .ok ts) (i : Nat) :
    ∃ ss' rows parts, tokenizeLoop (fun n => wordPieceModel wp n.normalized) ss = .ok ss' ∧
      rowsOfSplits (charMap .byte (encStr u)) (-1) ss' i = .ok rows ∧
      ss'.any (fun s => (s.tokens.getD []).isEmpty) = false ∧ (ss' = [] → rows = []) ∧
      a ++ (parts.map (·.1)).flatten = z ∧
      ss.map (·.normalized.normalized) = (wordParts parts).map (fun x => encStr x.1) ∧
      (∀ x ∈ wordParts parts, Spells v max x.1 x.2) ∧
      rows.map (·.offsets) = countedFrom (blen a) parts := by
  induction h generalizing i with
  | done u => exact ⟨[], [], [], rfl, rfl, rfl, fun _ => rfl, by simp, rfl, by simp [wordParts], rfl⟩
  | skip a g w ss hg _ ih =>
    obtain ⟨ss', rows, parts, h1, h2, h3, h4, h5, h6, h7, h8⟩ := ih hw i
    refine ⟨ss', rows, (g, none) :: parts, h1, h2, h3, h4, by simpa using h5, by simpa [wordParts] using h6,
      by simpa [wordParts] using h7, ?_⟩
    rw [countedFrom, ← blen_append]; exact h8
  | part a m w x t ss hp hm ht _ ih =>
    obtain ⟨ss', rows, parts, h1, h2, h3, h4, h5, h6, h7, h8⟩ := ih (fun w hw' => hw w (by simp [hw'])) (i + 1)
    cases t with
    | some ts => exact (ht ts rfl).elim
    | none =>
      have hx := fpart_text hp
      obtain ⟨ts, hts⟩ := hw m (by simp [hx])
      obtain ⟨o, ho, hoff⟩ := tokens_counted hv hpre hmax hts
      have hrow := C64_wordpiece_rows hp hm wp ts hts (i : Int)
      have hne := (wordPiece_offsets wp m hm ts hts).1
      refine ⟨⟨x, some ts⟩ :: ss', ts.map (fun t => ⟨t, wordPiecePlace a m t.offsets, (i : Int)⟩) ++ rows, (m, some o) :: parts,
        ?_, ?_, ?_, by simp, by simpa using h5, ?_, ?_, ?_⟩
      · simp only [tokenizeLoop, wordPieceModel, hx, decStr_enc, hts, Res.bind_ok]
        have h1' := h1
        simp only [wordPieceModel] at h1'
        rw [h1']; rfl
      · simp only [rowsOfSplits, if_true, Option.getD_some, hrow, h2, Res.bind_ok]
      · rw [List.any_cons, h3]
        simpa using hne
      · simp [wordParts, hx]
        simpa [wordParts] using h6
      · intro y hy
        simp only [wordParts, List.filterMap_cons, Option.map_some, List.mem_cons] at hy
        rcases hy with rfl | hy
        · exact ho
        · exact h7 y hy
      · rw [List.map_append, h8, countedFrom, blen_append, List.map_map]
        congr 1
        have : (ts.map (·.offsets)).map (wordPiecePlace a m) = ts.map ((fun r : Row => r.offsets) ∘ fun t => ⟨t, wordPiecePlace a m t.offsets, (i : Int)⟩) := by
          rw [List.map_map]; rfl
        rw [← this, hoff, List.map_map]
        apply List.map_congr_left
        intro r _
        simp only [Function.comp, wordPiecePlace, countedAt, Int.toNat_natCast]

theorem char_plain {w : Str} (hb : ∀ c ∈ w, c.utf8Size = 1) : ∀ i, i < w.length → charStart w i = i ∧ charEnd w i = i + 1 := by
  induction w with
  | nil => intro i h; exact absurd h (Nat.not_lt_zero _)
  | cons c w ih =>
    intro i h
    have hc := hb c (by simp)
    rw [charStart, charEnd, hc]
    by_cases hi : i < 1
    · rw [if_pos hi, if_pos hi]; omega
    · rw [List.length_cons] at h
      obtain ⟨e1, e2⟩ := ih (fun d hd => hb d (by simp [hd])) (i - 1) (by omega)
      rw [if_neg hi, if_neg hi, e1, e2]; omega

theorem blen_plain {w : Str} (hb : ∀ c ∈ w, c.utf8Size = 1) : blen w = w.length := by
  induction w with
  | nil => rfl
  | cons c w ih => rw [blen_cons, ih (fun d hd => hb d (by simp [hd])), hb c (by simp), List.length_cons]; omega

theorem spans_plain {w : Str} (hb : ∀ c ∈ w, c.utf8Size = 1) (k : Nat) : ∀ (qs : List Str) (a : Nat), (∀ q ∈ qs, q ≠ []) →
    (∀ q ∈ qs, ∀ c ∈ q, c.utf8Size = 1) → w.length = a + qs.flatten.length →
    (countSpans a qs).map (countedAt k w) = spansFrom (k + a) qs := by
  intro qs
  induction qs with
  | nil => intro a _ _ _; rfl
  | cons q qs ih =>
    intro a h1 h2 h3
    have hq := List.length_pos_iff.mpr (h1 q (by simp))
    rw [List.flatten_cons, List.length_append] at h3
    have e1 := (char_plain hb a (by omega)).1
    have e2 := (char_plain hb (a + q.length - 1) (by omega)).2
    have e3 := blen_plain (h2 q (by simp))
    rw [countSpans, List.map_cons, ih _ (fun p hp => h1 p (by simp [hp])) (fun p hp => h2 p (by simp [hp])) (by omega), spansFrom,
      e3, Nat.add_assoc k a]
    congr 1
    simp only [countedAt, e1, e2]
    congr 2; omega

theorem spells_pieces {v : List (Str × Int)} {max : Int} {w : Str} {o : Option (List Str)} (h : Spells v max w o) (hw : w ≠ []) :
    (o.getD [w]).flatten = w ∧ ∀ q ∈ o.getD [w], q ≠ [] := by
  cases o with
  | none => simpa using hw
  | some g =>
    obtain ⟨_, ps, h2, rfl⟩ := h
    obtain ⟨h3, h4⟩ := greedy_flatten h2
    refine ⟨h3, fun q hq => ?_⟩
    obtain ⟨x, hx, rfl⟩ := List.mem_map.mp hq
    exact h4 x hx

theorem wordParts_skip (g : Str) (parts : List (Str × Option (Option (List Str)))) :
    wordParts ((g, none) :: parts) = wordParts parts := rfl

theorem wordParts_word (w : Str) (o : Option (List Str)) (parts : List (Str × Option (Option (List Str)))) :
    wordParts ((w, some o) :: parts) = (w, o) :: wordParts parts := rfl

theorem counted_spots {v : List (Str × Int)} {max : Int} : ∀ (parts : List (Str × Option (Option (List Str)))) (k : Nat),
    (∀ x ∈ wordParts parts, Spells v max x.1 x.2 ∧ x.1 ≠ [] ∧ ∀ c ∈ x.1, c.utf8Size = 1) →
    countedFrom k parts = spotsFrom k parts := by
  intro parts
  induction parts with
  | nil => intro k _; rfl
  | cons p parts ih =>
    intro k h
    obtain ⟨w, o⟩ := p
    cases o with
    | none => rw [countedFrom, spotsFrom]; exact ih _ h
    | some o =>
      obtain ⟨h1, h2, h3⟩ := h (w, o) (by rw [wordParts_word]; simp)
      obtain ⟨g1, g2⟩ := spells_pieces h1 h2
      rw [countedFrom, spotsFrom, ih _ (fun x hx => h x (by rw [wordParts_word]; simp [hx]))]
      congr 1
      have := spans_plain h3 k (o.getD [w]) 0 g2 (fun q hq c hc => h3 c (by
        have : c ∈ (o.getD [w]).flatten := List.mem_flatten.mpr ⟨q, hq, hc⟩
        rwa [g1] at this)) (by rw [g1]; simp)
      simpa using this

theorem folds_plain {t : Tk} {T : Tables} {b : Norm.Bert} {s u : Str} (f : NStr → Res NStr)
    (ht : t.normalizer = some f) (hf : ∀ n, f n = b.normalize T n) (h : Plain T b.lowercase s u) : Folds t s u :=
  C144_bert_normalizer t b T s u (by rw [ht, funext hf]) h.clean h.cjk h.cased h.lower h.accents

theorem plain_nil {T : Tables} {l : Bool} {s u : Str} (h : Plain T l s u) : s = [] ↔ u = [] := by
  cases l with
  | false => rw [h.cased rfl]
  | true =>
    have := congrArg List.length (h.lower rfl).2
    simp only [List.length_map] at this
    rw [← List.length_eq_zero_iff, ← List.length_eq_zero_iff, this]

theorem encStr_inj {a b : Str} (h : encStr a = encStr b) : a = b := by
  have := congrArg decStr h
  rwa [decStr_enc, decStr_enc] at this

/-- The entries of the text `u` without normalizer. -/
theorem bert_rows {wp : WordPiece} {v : List (Str × Int)} {max : Int} (isPunc : Char → Bool) (hv : ∀ t, wp.vocab t = mget v t)
    (hpre : wp.pre = ['#', '#']) (hmax : wp.maxChars = max) (u : Str) (hu : u ≠ [])
    (hw : ∀ w ∈ bertWords isPunc u, ∃ ts, wp.tokenize w = .ok ts) :
    ∃ (rows : List Row) (parts : List (Str × Option (Option (List Str)))),
      Tk.encodeSingle ⟨⟨[], fun _ => []⟩, ⟨[], fun _ => []⟩, none, some (bertPre bertRe.engine isPunc), some (wordPieceModel wp)⟩
        (.raw (encStr u)) 0 .byte = .ok (ofRows rows 0) ∧
      (parts.map (·.1)).flatten = u ∧ (wordParts parts).map (·.1) = bertWords isPunc u ∧
      (∀ x ∈ wordParts parts, Spells v max x.1 x.2) ∧ rows.map (·.offsets) = countedFrom 0 parts := by
  obtain ⟨y, h1, h2⟩ := extract_none (t := ⟨⟨[], fun _ => []⟩, ⟨[], fun _ => []⟩, none, some (bertPre bertRe.engine isPunc),
    some (wordPieceModel wp)⟩) rfl (s := u) ⟨rfl, rfl⟩ hu
  have hcut0 : Cut u true (fun _ _ => False) [] u [⟨y, none⟩] := .part [] u u y none [] h2 hu nofun (.done u)
  obtain ⟨pt, k1, k2, k3, _⟩ := C65_bert bertRe.engine bertRe_proper isPunc u _ ⟨encStr u, [⟨y, none⟩]⟩ rfl hcut0
  obtain ⟨pt', l1, _, l3⟩ := C72_bert isPunc ⟨encStr u, [⟨y, none⟩]⟩ [(u, none)]
    ⟨by simp [fpart_text h2], by simpa using hu, by
      intro sp hsp
      rw [List.mem_singleton] at hsp
      subst hsp
      exact (fresh_same h2.2.1).1.wf⟩
  rw [k1] at l1
  cases l1
  have htexts : pt.splits.map (·.normalized.normalized) = (bertWords isPunc u).map encStr := by
    have := congrArg (List.map Prod.fst) l3.texts
    simpa [Function.comp_def, cutOne, bertWords, List.map_flatMap] using this
  obtain ⟨ss', rows, parts, g1, g2, g3, g4, g5, g6, g7, g8⟩ := cut_counted hv hpre hmax k3 (fun w h => by
    rw [htexts] at h
    obtain ⟨z, hz, e⟩ := List.mem_map.mp h
    rw [← encStr_inj e]
    exact hw z hz) 0
  refine ⟨rows, parts, ?_, by simpa using g5, ?_, g7, by simpa using g8⟩
  · have hone : Tk.encodeOne ⟨⟨[], fun _ => []⟩, ⟨[], fun _ => []⟩, none, some (bertPre bertRe.engine isPunc),
        some (wordPieceModel wp)⟩ (encStr u) 0 (-1) .byte = .ok (ofRows rows 0) := by
      simp only [Tk.encodeOne, h1, Tk.doPreTokenize, Res.bind_ok, k1, Tk.doTokenize, PTS.tokenize, g1, PTS.intoEncoding, g3, k2]
      by_cases he : ss' = []
      · rw [if_pos he, g4 he]
        exact congrArg Res.ok (default_ofRows 0)
      · rw [if_neg he]
        simp only [Bool.false_eq_true, if_false, g2, Res.bind_ok]
        rfl
    simp only [Tk.encodeSingle, hone, Res.bind_ok]
    have := merge_ofRows 0 [rows] []
    rw [default_ofRows 0]
    simpa using this
  · rw [htexts] at g6
    have := congrArg (List.map decStr) g6
    simp only [List.map_map, Function.comp_def, decStr_enc, List.map_id'] at this
    exact this.symm

theorem spelled_same {v : List (Str × Int)} {max : Int} : ∀ (as bs : List (Str × Option (List Str))), as.map (·.1) = bs.map (·.1) →
    (∀ x ∈ as, Spells v max x.1 x.2) → (∀ x ∈ bs, Spells v max x.1 x.2) → as = bs := by
  intro as
  induction as with
  | nil => intro bs h _ _; cases bs with
    | nil => rfl
    | cons => simp at h
  | cons x as ih =>
    intro bs h h1 h2
    cases bs with
    | nil => simp at h
    | cons y bs =>
      rw [List.map_cons, List.map_cons, List.cons.injEq] at h
      rw [ih bs h.2 (fun z hz => h1 z (by simp [hz])) (fun z hz => h2 z (by simp [hz]))]
      have e1 := h1 x (by simp)
      have e2 := h2 y (by simp)
      rw [← h.1] at e2
      rw [Prod.ext h.1 (spells_unique e1 e2)]

/-- Where the tokens of a BERT file are, whatever the characters. -/
theorem bert_counted (E : FileEnv) (hE : BertEnv E.toEnv) (c : FileConfig) (m n p q d : List (Str × Val))
    (v : List (Str × Int)) (max cls sep : Int) (hm : c.model = some m) (hs : WordPieceSection m d v max cls sep)
    (unk : Option Str) (hunk : IsOpt m "unk_token" .str unk)
    (hn : c.normalizer = some n) (cl l ch a : Bool) (hnorm : NormDesc E.cfg n (.bert cl l ch a))
    (hp : c.preTokenizer = some p) (hpre : PreDesc E.cfg p .bert)
    (hq : c.postProcessor = some q) (hproc : ClsSep q cls sep)
    (hd : c.decoder = some d) (cleanup : Bool) (hdec : DecDesc d (.wordPiece "##".toList cleanup))
    (htr : c.truncation = none) (hpad : c.padding = none)
    (s u : Str) (hu : Plain E.tables l s u) (hadd : ∀ x ∈ c.addedTokens, BertToken s u x)
    (hspec : ∀ w ∈ [clsT, sepT], ∃ x ∈ c.addedTokens, x.special = true ∧ x.content = w)
    (hw : (∀ w ∈ piecesOf (bertWords E.punc) s u, (w.length : Int) ≤ max ∧ ∃ ps, Greedy (vocabPieces v max) true w ps) ∨
      ((∃ i, (unk.getD "[UNK]".toList, i) ∈ v) ∧
        ∃ x ∈ c.addedTokens, x.special = true ∧ x.content = unk.getD "[UNK]".toList)) :
    ∃ (b : Built) (r : Encoding) (parts : List (Str × Option (Option (List Str)))), fromReader E (some c) = .ok b ∧
      b.tok.encodeSingle (encStr s) [true] = .ok (some r) ∧ (parts.map (·.1)).flatten = u ∧
      (wordParts parts).map (·.1) = piecesOf (bertWords E.punc) s u ∧
      (∀ x ∈ wordParts parts, Spells v max x.1 x.2 ∧ x.1 ≠ []) ∧
      r.tokens = clsT :: ((wordParts parts).map (fun x => spelling (unk.getD "[UNK]".toList) x.2)).flatten ++ [sepT] ∧
      r.offsets = (0, 0) :: countedFrom 0 parts ++ [(0, 0)] := by
  obtain ⟨pc, p1, p2⟩ := clsSep_post hproc
  obtain ⟨b, rows, wds, h1, h2, h3, h4, h5, h6, h7, h8, _, _, _, _, _, re, reN, wp, t1, t2, t3, t4, _, t6, t7, t8⟩ :=
    bert_words_file E hE c m n p d v max cls sep hm hs unk hunk hn cl l ch a hnorm hp hpre (some pc)
      (by rw [hq]; exact fromSection_some p1) hd cleanup hdec htr hpad s u hu hadd hspec hw
  obtain ⟨r, r1, r2, r3, r4⟩ := p2 rows
  have hpf : preFn E .bert = bertPre bertRe.engine E.punc := by
    funext pt; rw [preFn, hE.ws]
  have hmain : ∃ parts : List (Str × Option (Option (List Str))), (parts.map (·.1)).flatten = u ∧
      (wordParts parts).map (·.1) = piecesOf (bertWords E.punc) s u ∧
      (∀ x ∈ wordParts parts, Spells v max x.1 x.2 ∧ x.1 ≠ []) ∧ (ofRows rows 0).offsets = countedFrom 0 parts := by
    by_cases hs0 : s = []
    · have hu0 := (plain_nil hu).1 hs0
      have hnone : wds = [] := by
        cases wds with
        | nil => rfl
        | cons => simp [piecesOf, hs0] at h6
      rw [hnone] at h8
      have hr0 : rows = [] := by
        cases rows with
        | nil => rfl
        | cons => simp [ofRows] at h8
      refine ⟨[], by rw [hu0]; rfl, by simp [wordParts, piecesOf, hs0], by simp [wordParts], ?_⟩
      rw [hr0]; rfl
    · have hu0 : u ≠ [] := fun h => hs0 ((plain_nil hu).2 h)
      have hpo : piecesOf (bertWords E.punc) s u = bertWords E.punc u := by
        rw [piecesOf, if_neg (by simp [hs0, hu0])]
      obtain ⟨rows', parts, g1, g2, g3, g4, g5⟩ := bert_rows E.punc t4 t6 t7 u hu0 (by rw [← hpo]; exact t8)
      have hfold := C144_folded_partial b.tok.tk ⟨⟨[], fun _ => []⟩, ⟨[], fun _ => []⟩, none, some (bertPre bertRe.engine E.punc),
        some (wordPieceModel wp)⟩ s u hs0 hu0
        (folds_plain (b := ⟨cl, l, ch, a⟩) (T := E.tables) _ (by rw [t1]) (bert_normalizerOf E cl l ch a) hu)
        (by rw [t1]; exact t2) (by rw [t1]; exact t3) rfl ⟨rfl, rfl⟩ (by rw [t1, hpf]) (by rw [t1])
        (fun pre hpre' => by
          rw [t1, hpf] at hpre'
          cases hpre'
          exact .bert _ _ _) 0
      rw [h2, g1] at hfold
      have hoff := congrArg Encoding.offsets (Res.ok.inj hfold)
      refine ⟨parts, g2, by rw [hpo]; exact g3, fun x hx => ⟨g4 x hx, ?_⟩, ?_⟩
      · have hx' : x.1 ∈ bertWords E.punc u := by rw [← g3]; exact List.mem_map_of_mem hx
        unfold bertWords at hx'
        obtain ⟨y, _, hy⟩ := List.mem_flatMap.mp hx'
        exact Norm.runs_ne _ _ _ hy
      · rw [hoff, ← g5]; rfl
  obtain ⟨parts, m1, m2, m3, m4⟩ := hmain
  have hwds : wds = wordParts parts := spelled_same _ _ (h6.trans m2.symm) h7 (fun x hx => (m3 x hx).1)
  refine ⟨b, r, parts, h1, ?_, m1, m2, m3, by rw [r3, h8, hwds], by rw [r4, m4]⟩
  simp only [Tokenizer.encodeSingle, Tokenizer.encode, Tokenizer.encodeWith, h2, h3, h4, h5, Res.bind_ok, List.headD_cons]
  exact r1

theorem spans_inside (w : Str) : ∀ (qs : List Str) (a : Nat), (∀ q ∈ qs, q ≠ []) → a + qs.flatten.length = w.length →
    ∀ r ∈ countSpans a qs, r.1 < r.2 ∧ r.2 ≤ w.length := by
  intro qs
  induction qs with
  | nil => intro a _ _ r hr; cases hr
  | cons q qs ih =>
    intro a h1 h2 r hr
    have hq := List.length_pos_iff.mpr (h1 q (by simp))
    rw [List.flatten_cons, List.length_append] at h2
    rcases List.mem_cons.mp hr with rfl | hr
    · dsimp only; omega
    · exact ih _ (fun p hp => h1 p (by simp [hp])) (by omega) r hr

theorem words_fit : ∀ parts : List (Str × Option (Option (List Str))),
    blen ((wordParts parts).map (·.1)).flatten ≤ blen (parts.map (·.1)).flatten := by
  intro parts
  induction parts with
  | nil => exact Nat.le_refl _
  | cons p parts ih =>
    obtain ⟨w, o⟩ := p
    cases o with
    | none =>
      rw [wordParts_skip, List.map_cons, List.flatten_cons, blen_append]; omega
    | some o =>
      rw [wordParts_word, List.map_cons, List.map_cons, List.flatten_cons, List.flatten_cons, blen_append, blen_append]
      dsimp only; omega

theorem counted_none : ∀ (parts : List (Str × Option (Option (List Str)))) (k : Nat), wordParts parts = [] →
    countedFrom k parts = [] := by
  intro parts
  induction parts with
  | nil => intro k _; rfl
  | cons p parts ih =>
    intro k h
    obtain ⟨w, o⟩ := p
    cases o with
    | none => rw [countedFrom]; exact ih _ h
    | some o => rw [wordParts_word] at h; cases h

theorem counted_one (w : Str) (o : Option (List Str)) : ∀ (parts : List (Str × Option (Option (List Str)))) (k : Nat),
    wordParts parts = [(w, o)] → blen (parts.map (·.1)).flatten = blen w →
    countedFrom k parts = (countSpans 0 (o.getD [w])).map (countedAt k w) := by
  intro parts
  induction parts with
  | nil => intro k h _; cases h
  | cons p parts ih =>
    intro k h hb
    obtain ⟨g, x⟩ := p
    rw [List.map_cons, List.flatten_cons, blen_append] at hb
    cases x with
    | none =>
      rw [wordParts_skip] at h
      have := words_fit parts
      rw [h] at this
      simp only [List.map_cons, List.map_nil, List.flatten_cons, List.flatten_nil, List.append_nil] at this
      dsimp only at hb
      rw [countedFrom, ih _ h (by omega), show k + blen g = k by omega]
    | some x =>
      rw [wordParts_word, List.cons.injEq, Prod.mk.injEq] at h
      obtain ⟨⟨rfl, rfl⟩, h⟩ := h
      rw [countedFrom, counted_none _ _ h, List.append_nil]

/-! ### C144 -/

/-- **C144 (BERT files).** If the normalizer makes `u` of the text in place and all words have only characters of one byte, the
tokens of the words are where the words are: the text is the words and what is between them, every word is its pieces, one after
the other, and each token has the place of its piece; an unknown word has its own place, and `[CLS]` and `[SEP]` have none. -/
theorem C144_bert_file_partial (E : FileEnv) (hE : BertEnv E.toEnv) (c : FileConfig) (m n p q d : List (Str × Val))
    (v : List (Str × Int)) (max cls sep : Int) (hm : c.model = some m) (hs : WordPieceSection m d v max cls sep)
    (unk : Option Str) (hunk : IsOpt m "unk_token" .str unk)
    (hn : c.normalizer = some n) (cl l ch a : Bool) (hnorm : NormDesc E.cfg n (.bert cl l ch a))
    (hp : c.preTokenizer = some p) (hpre : PreDesc E.cfg p .bert)
    (hq : c.postProcessor = some q) (hproc : ClsSep q cls sep)
    (hd : c.decoder = some d) (cleanup : Bool) (hdec : DecDesc d (.wordPiece "##".toList cleanup))
    (htr : c.truncation = none) (hpad : c.padding = none)
    (s u : Str) (hu : Plain E.tables l s u) (hadd : ∀ x ∈ c.addedTokens, BertToken s u x)
    (hspec : ∀ w ∈ [clsT, sepT], ∃ x ∈ c.addedTokens, x.special = true ∧ x.content = w)
    (hw : (∀ w ∈ piecesOf (bertWords E.punc) s u, (w.length : Int) ≤ max ∧ ∃ ps, Greedy (vocabPieces v max) true w ps) ∨
      ((∃ i, (unk.getD "[UNK]".toList, i) ∈ v) ∧
        ∃ x ∈ c.addedTokens, x.special = true ∧ x.content = unk.getD "[UNK]".toList))
    (hone : ∀ w ∈ piecesOf (bertWords E.punc) s u, ∀ x ∈ w, x.utf8Size = 1) :
    ∃ (b : Built) (r : Encoding) (parts : List (Str × Option (Option (List Str)))), fromReader E (some c) = .ok b ∧
      b.tok.encodeSingle (encStr s) [true] = .ok (some r) ∧ (parts.map (·.1)).flatten = u ∧
      (wordParts parts).map (·.1) = piecesOf (bertWords E.punc) s u ∧ (∀ x ∈ wordParts parts, Spells v max x.1 x.2) ∧
      r.tokens = clsT :: ((wordParts parts).map (fun x => spelling (unk.getD "[UNK]".toList) x.2)).flatten ++ [sepT] ∧
      r.offsets = (0, 0) :: spotsFrom 0 parts ++ [(0, 0)] := by
  obtain ⟨b, r, parts, h1, h2, h3, h4, h5, h6, h7⟩ := bert_counted E hE c m n p q d v max cls sep hm hs unk hunk hn cl l ch a hnorm hp hpre hq hproc hd
    cleanup hdec htr hpad s u hu hadd hspec hw
  refine ⟨b, r, parts, h1, h2, h3, h4, fun x hx => (h5 x hx).1, h6, ?_⟩
  rw [h7, counted_spots parts 0 (fun x hx => ⟨(h5 x hx).1, (h5 x hx).2, hone x.1 (by rw [← h4]; exact List.mem_map_of_mem hx)⟩)]

/-- C144 fails for other words: if the text is one word `y ++ z` that has no more characters than `y` has bytes, no token covers
anything of `z`, whatever the vocabulary. -/
theorem C144_bert_file_violated (E : FileEnv) (hE : BertEnv E.toEnv) (c : FileConfig) (m n p q d : List (Str × Val))
    (v : List (Str × Int)) (max cls sep : Int) (hm : c.model = some m) (hs : WordPieceSection m d v max cls sep)
    (unk : Option Str) (hunk : IsOpt m "unk_token" .str unk)
    (hn : c.normalizer = some n) (cl l ch a : Bool) (hnorm : NormDesc E.cfg n (.bert cl l ch a))
    (hp : c.preTokenizer = some p) (hpre : PreDesc E.cfg p .bert)
    (hq : c.postProcessor = some q) (hproc : ClsSep q cls sep)
    (hd : c.decoder = some d) (cleanup : Bool) (hdec : DecDesc d (.wordPiece "##".toList cleanup))
    (htr : c.truncation = none) (hpad : c.padding = none)
    (s u : Str) (hu : Plain E.tables l s u) (hadd : ∀ x ∈ c.addedTokens, BertToken s u x)
    (hspec : ∀ w ∈ [clsT, sepT], ∃ x ∈ c.addedTokens, x.special = true ∧ x.content = w)
    (hw : (∀ w ∈ piecesOf (bertWords E.punc) s u, (w.length : Int) ≤ max ∧ ∃ ps, Greedy (vocabPieces v max) true w ps) ∨
      ((∃ i, (unk.getD "[UNK]".toList, i) ∈ v) ∧
        ∃ x ∈ c.addedTokens, x.special = true ∧ x.content = unk.getD "[UNK]".toList))
    (y z : Str) (huz : u = y ++ z) (hz : z ≠ []) (hword : bertWords E.punc u = [u]) (hlen : u.length ≤ blen y) :
    ∃ (b : Built) (r : Encoding), fromReader E (some c) = .ok b ∧ b.tok.encodeSingle (encStr s) [true] = .ok (some r) ∧
      2 < r.tokens.length ∧ ∀ o ∈ r.offsets, o.2 ≤ (blen y : Nat) := by
  obtain ⟨b, r, parts, h1, h2, h3, h4, h5, h6, h7⟩ := bert_counted E hE c m n p q d v max cls sep hm hs unk hunk hn cl l ch a hnorm hp hpre hq hproc hd
    cleanup hdec htr hpad s u hu hadd hspec hw
  have hu0 : u ≠ [] := by rw [huz]; simp [hz]
  have hs0 : s ≠ [] := fun h => hu0 ((plain_nil hu).1 h)
  rw [piecesOf, if_neg (by simp [hs0, hu0]), hword] at h4
  obtain ⟨o, ho⟩ : ∃ o, wordParts parts = [(u, o)] := by
    cases hp' : wordParts parts with
    | nil => rw [hp'] at h4; cases h4
    | cons x xs =>
      rw [hp', List.map_cons, List.cons.injEq] at h4
      have hxs : xs = [] := by simpa using h4.2
      exact ⟨x.2, by rw [hxs, ← h4.1]⟩
  obtain ⟨g1, g2⟩ := spells_pieces (h5 (u, o) (by rw [ho]; simp)).1 hu0
  refine ⟨b, r, h1, h2, ?_, ?_⟩
  · rw [h6, ho]
    have : 0 < (spelling (unk.getD "[UNK]".toList) o).length := by
      cases o with
      | none => exact Nat.one_pos
      | some g =>
        cases g with
        | nil => exact absurd g1.symm hu0
        | cons => simp [spelling, wordValues]
    simp only [List.map_cons, List.map_nil, List.flatten_cons, List.flatten_nil, List.append_nil, List.length_append,
      List.length_cons, List.length_nil]
    omega
  · intro x hx
    rw [h7, counted_one u o parts 0 ho (by rw [h3])] at hx
    simp only [List.cons_append, List.mem_cons, List.mem_append, List.mem_map, List.not_mem_nil, or_false] at hx
    rcases hx with rfl | ⟨k, hk, rfl⟩ | rfl
    · simp
    · obtain ⟨e1, e2⟩ := spans_inside u (o.getD [u]) 0 g2 (by rw [g1]; simp) k hk
      have := charEnd_le y z (k.2 - 1) (by omega)
      rw [← huz] at this
      simp only [countedAt]
      omega
    · simp

/-! ### Cases -/

/-- Lower case for "Y", as of `strings.ToLower`, and "!" as punctuation. -/
def caseBertEnv : FileEnv :=
  { caseFileEnv with
    ws := bertRe.engine
    punc := fun c => ['.', '?', '!', ',', '\'', '[', '#'].contains c
    tables := { caseEnv.tables with lower := fun bs => encStr ((runes bs).map (fun c => if c = 'Y' then 'y' else c)) } }

/-- A vocabulary with a word in two pieces, a mark and the unknown token. -/
def placesVocab : List (Str × Int) := [(clsT, 0), (sepT, 1), ("[UNK]".toList, 2), (['!'], 3), (['y', 'e'], 4), (['#', '#', 's'], 5)]

def placesFile : FileConfig :=
  { examplePairBert with
    model := some [("type".toList, .str "WordPiece".toList), ("unk_token".toList, .str "[UNK]".toList),
      ("continuing_subword_prefix".toList, .str "##".toList), ("max_input_chars_per_word".toList, .float 100),
      ("vocab".toList, vocabVal placesVocab)]
    normalizer := some [("type".toList, .str "BertNormalizer".toList), ("clean_text".toList, .bool true),
      ("lowercase".toList, .bool true), ("handle_chinese_chars".toList, .bool true), ("strip_accents".toList, .bool true)] }

theorem caseBertEnv_bert : BertEnv caseBertEnv.toEnv := ⟨by decide, rfl, fun _ => .refl _⟩

theorem places_token (s u : Str) (hs : '[' ∉ s) (hu : '[' ∉ u) : ∀ x ∈ placesFile.addedTokens, BertToken s u x := by
  intro x hx
  obtain ⟨h1, h2, h3, _⟩ := examplePairBert_token s hs x hx
  exact ⟨h1, h2, h3, (examplePairBert_token u hu x hx).2.2.1⟩

theorem places_section (d : List (Str × Val)) : WordPieceSection
    [("type".toList, .str "WordPiece".toList), ("unk_token".toList, .str "[UNK]".toList),
      ("continuing_subword_prefix".toList, .str "##".toList), ("max_input_chars_per_word".toList, .float 100),
      ("vocab".toList, vocabVal placesVocab)] d placesVocab 100 0 1 :=
  ⟨.given _ (by rfl), by rfl, ⟨some "[UNK]".toList, by rfl⟩, .inr (by rfl), by rfl,
    ⟨by decide +kernel, by decide +kernel, by decide +kernel⟩, by decide +kernel, by decide +kernel⟩

theorem places_specials : ∀ w ∈ [clsT, sepT], ∃ x ∈ placesFile.addedTokens, x.special = true ∧ x.content = w := by
  intro w hw
  simp only [List.mem_cons, List.not_mem_nil, or_false] at hw
  rcases hw with rfl | rfl
  · exact ⟨_, .head _, rfl, rfl⟩
  · exact ⟨_, .tail _ (.head _), rfl, rfl⟩

theorem places_template : ClsSep exampleBertTemplate 0 1 :=
  .inr ⟨by unfold TypeIs; rfl, 0, [.special clsT 0, .seq false 0, .special sepT 0, .seq true 1, .special sepT 1],
    [⟨clsT, [0], [clsT]⟩, ⟨sepT, [1], [sepT]⟩], by rfl, by rfl, by rfl, by decide, by simp, by simp⟩

/-- The hypotheses are met by "Yes  no!". -/
example : ∃ (b : Built) (r : Encoding) (parts : List (Str × Option (Option (List Str)))),
    fromReader caseBertEnv (some placesFile) = .ok b ∧ b.tok.encodeSingle (encStr "Yes  no!".toList) [true] = .ok (some r) ∧
      (parts.map (·.1)).flatten = "yes  no!".toList ∧ r.offsets = (0, 0) :: spotsFrom 0 parts ++ [(0, 0)] := by
  obtain ⟨b, r, parts, h1, h2, h3, _, _, _, h4⟩ := C144_bert_file_partial caseBertEnv caseBertEnv_bert placesFile _ _ _ _ _ placesVocab
    100 0 1 rfl (places_section _) (some "[UNK]".toList) (by rfl) rfl true true true true
    (.bert _ _ _ _ _ (by unfold TypeIs; rfl) (.inl (by rfl)) (.inl (by rfl)) (.inl (by rfl)) (.inl (by rfl))) rfl
    (.bert _ (by unfold TypeIs; rfl)) rfl places_template rfl true
    (.wordPiece _ _ _ (by unfold TypeIs; rfl) (by unfold StrIs; rfl) (by rfl)) rfl rfl "Yes  no!".toList "yes  no!".toList
    ⟨by decide, by decide, nofun, fun _ => ⟨by decide +kernel, by decide +kernel⟩, by decide⟩
    (places_token _ _ (by decide) (by decide)) places_specials
    (.inr ⟨⟨2, by decide +kernel⟩, _, .tail _ (.tail _ (.head _)), rfl, rfl⟩) (by decide +kernel)
  exact ⟨b, r, parts, h1, h2, h3, h4⟩

/-- Its tokens are `ye`, `##s`, the unknown token for "no" and the mark. -/
example : okAnd (fromReader caseBertEnv (some placesFile)) (fun b =>
    okAnd (b.tok.encodeSingle (encStr "Yes  no!".toList) [true]) (fun o =>
      decide (o.map (fun r => (r.tokens, r.offsets)) = some ([clsT, ['y', 'e'], ['#', '#', 's'], "[UNK]".toList, ['!'], sepT],
        [(0, 0), (0, 2), (2, 3), (5, 7), (7, 8), (0, 0)])))) = true := by
  decide +kernel

/-- Of "yöx" no token covers the "x". -/
example : ∃ (b : Built) (r : Encoding), fromReader caseBertEnv (some placesFile) = .ok b ∧
    b.tok.encodeSingle (encStr ['Y', 'ö', 'x']) [true] = .ok (some r) ∧ 2 < r.tokens.length ∧ ∀ o ∈ r.offsets, o.2 ≤ 3 :=
  C144_bert_file_violated caseBertEnv caseBertEnv_bert placesFile _ _ _ _ _ placesVocab
    100 0 1 rfl (places_section _) (some "[UNK]".toList) (by rfl) rfl true true true true
    (.bert _ _ _ _ _ (by unfold TypeIs; rfl) (.inl (by rfl)) (.inl (by rfl)) (.inl (by rfl)) (.inl (by rfl))) rfl
    (.bert _ (by unfold TypeIs; rfl)) rfl places_template rfl true
    (.wordPiece _ _ _ (by unfold TypeIs; rfl) (by unfold StrIs; rfl) (by rfl)) rfl rfl ['Y', 'ö', 'x'] ['y', 'ö', 'x']
    ⟨by decide, by decide, nofun, fun _ => ⟨by decide +kernel, by decide +kernel⟩, by decide⟩
    (places_token _ _ (by decide) (by decide)) places_specials
    (.inr ⟨⟨2, by decide +kernel⟩, _, .tail _ (.tail _ (.head _)), rfl, rfl⟩) ['y', 'ö'] ['x'] rfl (by simp) (by decide +kernel)
    (by decide)

end Tok.Whole
