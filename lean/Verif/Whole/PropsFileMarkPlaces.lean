import Verif.Whole.PropsFileLlama
import Verif.Whole.PropsFilePlaces

/-!
# C145: where the tokens of files that write spaces as a mark are in the text
-/

namespace Tok.Whole

open Tok.PreTok Tok.Added Tok.Config Tok.Regex
open Tok.Norm (NStr WF replacedText replacedAligns byteRanges)

/-! ### Specification -/

/-- The places in the text `s` of pieces of the marked text, of which the first begins at character `k` of the marked text. The
mark in front is no character of the text: a piece of it alone gets the place of the first character. -/
def markSpots (s : Str) : Nat → List Str → List (Int × Int)
  | _, [] => []
  | k, q :: qs => ((blen (s.take (k - 1)) : Int), (blen (s.take (max 1 (k + q.length - 1))) : Int)) :: markSpots s (k + q.length) qs

/-- There is no post-processor, or a template. -/
def TemplateOrNone (o : Option (List (Str × Val))) : Prop := o = none ∨ ∃ q, o = some q ∧ TypeIs q "TemplateProcessing"

/-! ### Lemmas -/

/-- How a character is written. -/
def markChar (r d : Char) : Char := if d = ' ' then r else d

/-- The marked text, character by character. -/
def markBlocks (r : Char) : Str → List (Str × Str)
  | [] => []
  | c :: t => ([c], [r, markChar r c]) :: t.map (fun d => ([d], [markChar r d]))

theorem replacedAligns_char (r : Char) {us : List (Str × Bool)} (h : WordCut [' '] us) : ∀ i,
    replacedAligns [r] i us = alignsOf ((textOf us).map (fun d => ([d], [markChar r d]))) i := by
  induction h with
  | nil => intro i; rfl
  | hit us h ih =>
    intro i
    rw [replacedAligns, if_pos rfl, textOf_cons, ih]
    simp [alignsOf, markChar]
  | gap t us ht hg hh h ih =>
    intro i
    have hn : ∀ c ∈ t, c ≠ ' ' := by
      intro c hc e
      subst e
      obtain ⟨u, v, e⟩ := List.append_of_mem hc
      exact hg u (' ' :: v) e (by simp) ⟨v ++ textOf us, rfl⟩
    have e1 : t.map (fun d => ([d], [markChar r d])) = singles t := by
      apply List.map_congr_left
      intro d hd
      simp [markChar, hn d hd]
    rw [replacedAligns, if_neg (by simp), textOf_cons, ih, List.map_append, alignsOf_append, e1, lefts_singles, byteRanges_blocks]

theorem lefts_map (f : Char → Char) (t : Str) : lefts (t.map (fun d => ([d], [f d]))) = t := by
  induction t with
  | nil => rfl
  | cons d t ih => rw [List.map_cons, lefts_cons, ih]; rfl

theorem rights_map (f : Char → Char) (t : Str) : rights (t.map (fun d => ([d], [f d]))) = t.map f := by
  induction t with
  | nil => rfl
  | cons d t ih => rw [List.map_cons, rights_cons, ih]; rfl

theorem marked_cons (r c : Char) (t : Str) : marked r (c :: t) = r :: markChar r c :: t.map (markChar r) := by
  rw [marked, if_neg (by simp)]
  rfl

theorem rights_mark (r : Char) (s : Str) : rights (markBlocks r s) = marked r s := by
  cases s with
  | nil => rfl
  | cons c t => rw [markBlocks, rights_cons, rights_map, marked_cons]; rfl

theorem marked_length {r : Char} {s : Str} (hs : s ≠ []) : (marked r s).length = s.length + 1 := by
  rw [marked, if_neg hs]; simp

theorem blocks_take (r c : Char) (t : Str) (j : Nat) :
    rights ((markBlocks r (c :: t)).take (j + 1)) = (marked r (c :: t)).take (j + 2) ∧
    lefts ((markBlocks r (c :: t)).take (j + 1)) = (c :: t).take (j + 1) := by
  rw [markBlocks, List.take_succ_cons, ← List.map_take, rights_cons, lefts_cons, rights_map, lefts_map, marked_cons]
  constructor
  · simp [List.map_take]
  · simp

theorem inBlock_unique {bs : List (Str × Str)} : ∀ {i : Nat} {as as' : List (Str × Str)} {b b' : Str × Str},
    InBlock bs i as b → InBlock bs i as' b' → as = as' ∧ b = b' := by
  induction bs with
  | nil =>
    rintro i as as' b b' ⟨zs, h, _⟩ _
    cases as <;> cases h
  | cons x bs ih =>
    rintro i as as' b b' ⟨zs, h1, h2, h3⟩ ⟨zs', g1, g2, g3⟩
    cases as with
    | nil =>
      simp only [List.nil_append, List.cons.injEq] at h1
      obtain ⟨rfl, rfl⟩ := h1
      cases as' with
      | nil =>
        simp only [List.nil_append, List.cons.injEq] at g1
        exact ⟨rfl, g1.1⟩
      | cons a as' =>
        simp only [List.cons_append, List.cons.injEq] at g1
        obtain ⟨rfl, rfl⟩ := g1
        rw [rights_cons, blen_append] at g2
        have h3 : i < 0 + blen x.2 := h3
        omega
    | cons a as =>
      simp only [List.cons_append, List.cons.injEq] at h1
      obtain ⟨rfl, rfl⟩ := h1
      rw [rights_cons, blen_append] at h2 h3
      cases as' with
      | nil =>
        simp only [List.nil_append, List.cons.injEq] at g1
        obtain ⟨rfl, _⟩ := g1
        have g3 : i < 0 + blen x.2 := g3
        omega
      | cons a' as' =>
        simp only [List.cons_append, List.cons.injEq] at g1
        obtain ⟨rfl, g1⟩ := g1
        rw [rights_cons, blen_append] at g2 g3
        obtain ⟨e1, e2⟩ := @ih (i - blen x.2) as as' b b' ⟨zs, rfl, by omega, by omega⟩ ⟨zs', g1, by omega, by omega⟩
        exact ⟨by rw [e1], e2⟩

theorem blocks_at (r c : Char) (t : Str) (j : Nat) (hj : j < t.length) :
    InBlock (markBlocks r (c :: t)) (blen ((marked r (c :: t)).take (j + 2))) ((markBlocks r (c :: t)).take (j + 1))
      ([t[j]], [markChar r t[j]]) ∧
    blen ((marked r (c :: t)).take (j + 3)) = blen ((marked r (c :: t)).take (j + 2)) + (markChar r t[j]).utf8Size := by
  have hget : (markBlocks r (c :: t))[j + 1]? = some ([t[j]], [markChar r t[j]]) := by
    rw [markBlocks, List.getElem?_cons_succ, List.getElem?_map, List.getElem?_eq_getElem hj]; rfl
  obtain ⟨hl, he⟩ := List.getElem?_eq_some_iff.mp hget
  have hp := (markChar r t[j]).utf8Size_pos
  constructor
  · refine ⟨(markBlocks r (c :: t)).drop (j + 2), ?_, ?_, ?_⟩
    · rw [← he, ← List.drop_eq_getElem_cons hl, List.take_append_drop]
    · rw [(blocks_take r c t j).1]
    · rw [(blocks_take r c t j).1]
      simp only [blen_cons, blen_nil]
      omega
  · have := (blocks_take r c t (j + 1)).1
    rw [List.take_succ_eq_append_getElem hl, rights_append, he, (blocks_take r c t j).1] at this
    rw [← this, blen_append]
    simp [rights, blen_cons]

theorem blocks_first (r c : Char) (t : Str) (i : Nat) (h : i < r.utf8Size + (markChar r c).utf8Size) :
    InBlock (markBlocks r (c :: t)) i [] ([c], [r, markChar r c]) :=
  ⟨t.map (fun d => ([d], [markChar r d])), rfl, Nat.zero_le _, by
    show i < 0 + blen [r, markChar r c]
    simp only [blen_cons, blen_nil]
    omega⟩

/-- The place of a piece of the marked text. -/
theorem mark_place {r : Char} {s : Str} (hs : s ≠ []) {y : NStr} (hy : SegOf 0 (markBlocks r s) 0 y)
    (hl : y.normalized.length = blen (marked r s)) (p q z : Str) (hq : q ≠ []) (he : p ++ q ++ z = marked r s) :
    origOffsets y ((blen p : Int), ((blen p + blen q : Nat) : Int)) =
      .ok ((blen (s.take (p.length - 1)) : Int), (blen (s.take (max 1 (p.length + q.length - 1))) : Int)) := by
  have hal : y.aligns.length = y.normalized.length := by
    have := congrArg List.length hy.aligns
    rw [List.length_map, List.length_take, List.length_drop, length_alignsOf] at this
    have := hy.inside
    omega
  obtain ⟨o, ho⟩ := origOffsets_ok y ((blen p : Int), ((blen p + blen q : Nat) : Int)) ⟨by dsimp only; omega, by dsimp only; omega⟩ hal
  have hqb : 0 < blen q := length_pos_of_ne hq
  have hqn := List.length_pos_iff.mpr hq
  have hb := congrArg blen he
  rw [blen_append, blen_append] at hb
  have hlen := congrArg List.length he
  rw [List.length_append, List.length_append, marked_length hs] at hlen
  obtain ⟨as, b1, cs, b2, i1, i2, rfl⟩ := origOffsets_seg hy ho (by dsimp only; omega) (by dsimp only; omega) (by dsimp only; omega)
  rw [ho]
  simp only [Int.toNat_natCast, Nat.zero_add] at i1 i2 ⊢
  cases s with
  | nil => exact absurd rfl hs
  | cons c t =>
    rw [List.length_cons] at hlen
    have htake : ∀ n, n ≤ (p ++ q).length → (marked r (c :: t)).take n = (p ++ q).take n := by
      intro n hn
      rw [← he, List.take_append_of_le_length hn]
    have h1 : blen (lefts as) = blen ((c :: t).take (p.length - 1)) := by
      rcases Nat.lt_or_ge p.length 2 with hp | hp
      · have hbp : blen p < r.utf8Size + (markChar r c).utf8Size := by
          have e := htake p.length (by simp)
          rw [List.take_left, marked_cons] at e
          have hp1 := (markChar r c).utf8Size_pos
          have hp2 := r.utf8Size_pos
          rcases (show p.length = 0 ∨ p.length = 1 by omega) with h | h
          · rw [List.length_eq_zero_iff.mp h, blen_nil]; omega
          · rw [h] at e
            rw [← e]
            simp only [List.take_succ_cons, List.take_zero, blen_cons, blen_nil]
            omega
        rw [(inBlock_unique i1 (blocks_first r c t _ hbp)).1, show p.length - 1 = 0 by omega]
        rfl
      · obtain ⟨j, hj⟩ : ∃ j, p.length = j + 2 := ⟨p.length - 2, by omega⟩
        have hjt : j < t.length := by omega
        have := (blocks_at r c t j hjt).1
        rw [← hj, htake p.length (by simp), List.take_left] at this
        rw [(inBlock_unique i1 this).1, (blocks_take r c t j).2, hj]
        rfl
    have h2 : blen (lefts cs) + blen b2.1 = blen ((c :: t).take (max 1 (p.length + q.length - 1))) := by
      have hpq : (p ++ q).length = p.length + q.length := List.length_append
      rcases Nat.lt_or_ge (p.length + q.length) 3 with hp | hp
      · have hbp : blen p + blen q - 1 < r.utf8Size + (markChar r c).utf8Size := by
          have e := htake (p ++ q).length (Nat.le_refl _)
          rw [List.take_length, marked_cons] at e
          have hp1 := (markChar r c).utf8Size_pos
          have hp2 := r.utf8Size_pos
          rw [← blen_append, ← e, hpq]
          rcases (show p.length + q.length = 1 ∨ p.length + q.length = 2 by omega) with h | h
          · rw [h]
            simp only [List.take_succ_cons, List.take_zero, blen_cons, blen_nil]
            omega
          · rw [h]
            simp only [List.take_succ_cons, List.take_zero, blen_cons, blen_nil]
            omega
        obtain ⟨e1, e2⟩ := inBlock_unique i2 (blocks_first r c t _ hbp)
        rw [e1, e2, show max 1 (p.length + q.length - 1) = 1 by omega]
        simp [lefts]
      · obtain ⟨j, hj⟩ : ∃ j, p.length + q.length = j + 3 := ⟨p.length + q.length - 3, by omega⟩
        have hjt : j < t.length := by omega
        obtain ⟨⟨zs, g1, g2, g3⟩, g4⟩ := blocks_at r c t j hjt
        have hsz := (markChar r t[j]).utf8Size_pos
        rw [← hj, ← hpq, htake _ (Nat.le_refl _), List.take_length, blen_append] at g4
        have hin : InBlock (markBlocks r (c :: t)) (blen p + blen q - 1) ((markBlocks r (c :: t)).take (j + 1))
            ([t[j]], [markChar r t[j]]) := by
          refine ⟨zs, g1, ?_, ?_⟩
          · rw [(blocks_take r c t j).1]; omega
          · rw [(blocks_take r c t j).1]
            simp only [blen_cons, blen_nil]
            omega
        obtain ⟨e1, e2⟩ := inBlock_unique i2 hin
        rw [e1, e2, (blocks_take r c t j).2, show max 1 (p.length + q.length - 1) = (j + 1) + 1 by omega, ← blen_append]
        congr 1
        rw [List.take_succ_eq_append_getElem (by rw [List.length_cons]; omega : j + 1 < (c :: t).length)]
        rfl
    rw [h1, h2]

theorem rows_marked {r : Char} {s : Str} (hs : s ≠ []) {y : NStr} (hy : SegOf 0 (markBlocks r s) 0 y)
    (hl : y.normalized.length = blen (marked r s)) (word : Int) : ∀ (qs : List Str) (ts : List Token) (p : Str),
    p ++ qs.flatten = marked r s → (∀ q ∈ qs, q ≠ []) → ts.map (·.offsets) = spansFrom (blen p) qs →
    ∃ rows, rowsOfTokens [] y word ts = .ok rows ∧ rows.map (·.token) = ts ∧ rows.map (·.offsets) = markSpots s p.length qs := by
  intro qs
  induction qs with
  | nil =>
    intro ts p _ _ h
    cases ts with
    | nil => exact ⟨[], rfl, rfl, rfl⟩
    | cons => cases h
  | cons q qs ih =>
    intro ts p he hne h
    cases ts with
    | nil => cases h
    | cons t ts =>
      rw [List.map_cons, spansFrom, List.cons.injEq] at h
      rw [List.flatten_cons, ← List.append_assoc] at he
      obtain ⟨rows, h1, h2, h3⟩ := ih ts (p ++ q) he (fun x hx => hne x (by simp [hx])) (by rw [blen_append]; exact h.2)
      have hp := mark_place hs hy hl p q qs.flatten (hne q (by simp)) he
      refine ⟨⟨t, ((blen (s.take (p.length - 1)) : Int), (blen (s.take (max 1 (p.length + q.length - 1))) : Int)), word⟩ :: rows,
        ?_, by rw [List.map_cons, h2], ?_⟩
      · simp only [rowsOfTokens, h.1, hp, h1, Res.bind_ok]
        rfl
      · rw [List.map_cons, h3, markSpots, List.length_append]

/-- The normalizer of such a file. -/
theorem markNorm_blocks (E : FileEnv) {r : Char} (hr : r ≠ ' ') (c : Char) (t : Str) (hc : c ≠ '\x00') {x : NStr}
    (hx : PreTok.Fresh x (c :: t)) : ∃ z, normalizerOf E (markNorm r) x = .ok z ∧ WF z ∧
      z.normalized = encStr (rights (markBlocks r (c :: t))) ∧ z.aligns = alignsOf (markBlocks r (c :: t)) 0 ∧ z.shift = x.shift := by
  obtain ⟨us, h1, h2⟩ := wordCut_exists (w := [' ']) (by simp) (r :: c :: t)
  cases h1 with
  | nil => cases h2
  | hit us h1 =>
    rw [textOf_cons] at h2
    simp only [List.cons_append, List.cons.injEq] at h2
    exact absurd h2.1.symm hr
  | gap w us ht hg hh h1 =>
    cases w with
    | nil => exact absurd rfl ht
    | cons r' q =>
      have h2' := h2
      rw [textOf_cons] at h2
      simp only [List.cons_append, List.cons.injEq] at h2
      obtain ⟨rfl, h2⟩ := h2
      have hcut : WordCut [' '] ((r' :: q, false) :: us) := .gap _ _ ht hg hh h1
      have hfind := string_find (w := [' ']) (by simp) hcut (by rw [h2']; simp)
      rw [h2'] at hfind
      obtain ⟨y, z, e1, e2, e3, e4, e5, e6⟩ := prepend_replace hx hc r' _ [r'] q us h2
        (fun u hu => reCut_ne (wordCut_re (by simp) hcut) u (by simp [hu])) hfind
      refine ⟨z, ?_, e4, ?_, ?_, e6⟩
      · have hne : x.normalized ≠ [] := by rw [hx.text]; exact encStr_ne (by simp)
        simp only [normalizerOf, markNorm, normFn, normFns, replacePat, Bool.false_eq_true, if_false, Norm.Normalizer.normalize,
          if_neg hne, e1, Res.bind, e2, bind]
      · rw [e3, rights_mark]
        have he : r' :: q ++ replacedText [r'] us = replacedText [r'] ((r' :: q, false) :: us) := by simp [replacedText]
        rw [he, replacedText_char [r'] hcut, h2', marked_cons, List.flatMap_cons, if_neg hr]
        congr 1
        show _ :: _ = _ :: _
        congr 1
        show (c :: t).flatMap _ = (c :: t).map (markChar r')
        generalize c :: t = l
        induction l with
        | nil => rfl
        | cons d l ih =>
          rw [List.map_cons, List.flatMap_cons, ih, markChar]
          split <;> rfl
      · rw [e5]
        have hq : ∀ d ∈ q, d ≠ ' ' := by
          intro d hd e
          subst e
          obtain ⟨u, v, e⟩ := List.append_of_mem hd
          exact hg (r' :: u) (' ' :: v) (by rw [e]; rfl) (by simp) ⟨v ++ textOf us, rfl⟩
        have e1 : q.map (fun d => ([d], [markChar r' d])) = singles q := by
          apply List.map_congr_left
          intro d hd
          simp [markChar, hq d hd]
        have e7 : replacedAligns [r'] 0 ((q, false) :: us) = alignsOf ((c :: t).map (fun d => ([d], [markChar r' d]))) 0 := by
          rw [replacedAligns, if_neg (by simp), replacedAligns_char r' h1, ← h2, List.map_append, alignsOf_append, e1, lefts_singles,
            byteRanges_blocks]
        rw [e7, List.map_cons, markBlocks, alignsOf, alignsOf, ← List.append_assoc]
        congr 1
        simp only [blen_cons, blen_nil, Nat.add_zero, Nat.zero_add, Int.natCast_zero]
        rw [List.replicate_append_replicate]

/-- What the tokenizer makes of a text before the post-processor. -/
theorem mark_rows {E : FileEnv} {r : Char} (hr : r ≠ ' ') {re reN : MatchingSet} {f : List UInt8 → Res (Option (List Token))} {s : Str}
    (hs : s ≠ []) (hnul : s.head? ≠ some '\x00') (h1 : re.engine (encStr s) = []) (h2 : reN.engine (encStr (marked r s)) = [])
    (qs : List Str) (ts : List Token) (hf : f (encStr (marked r s)) = .ok (some ts)) (hq : qs.flatten = marked r s)
    (hne : ∀ q ∈ qs, q ≠ []) (ho : ts.map (·.offsets) = spansFrom 0 qs) :
    ∃ rows, Tk.encodeSingle ⟨re, reN, some (normalizerOf E (markNorm r)), none, some f⟩ (.raw (encStr s)) 0 .byte = .ok (ofRows rows 0) ∧
      rows.map (·.token) = ts ∧ rows.map (·.offsets) = markSpots s 0 qs := by
  have hm : marked r s ≠ [] := by rw [marked, if_neg hs]; simp
  obtain ⟨x, k1, k2⟩ := split_none h1 hs (fpart_whole s)
  have hx : x.normalized ≠ [] := by rw [fpart_text k2]; exact enc_ne hs
  obtain ⟨z, e1, e2, e3, e4, e5⟩ : ∃ z, normalizerOf E (markNorm r) x = .ok z ∧ WF z ∧
      z.normalized = encStr (rights (markBlocks r s)) ∧ z.aligns = alignsOf (markBlocks r s) 0 ∧ z.shift = x.shift := by
    cases s with
    | nil => exact absurd rfl hs
    | cons c t => exact markNorm_blocks E hr c t (fun e => hnul (by rw [e]; rfl)) k2.2.1
  have hz : SegOf 0 (markBlocks r s) 0 z := segOf_whole e3 e4 (by rw [e5, k2.2.2]; rfl)
  rw [rights_mark] at e3
  obtain ⟨y, f1, f2, f3⟩ : ∃ y, splitWithIndices reN z = .ok [⟨some y, none⟩] ∧ SegOf 0 (markBlocks r s) 0 y ∧
      y.normalized = encStr (marked r s) := by
    have hpos := length_pos_of_ne hm
    obtain ⟨y, h3, h4, _⟩ := Norm.slice_ok e2 e3 (a := 0) (b := blen (marked r s)) ⟨[], _, rfl, rfl⟩ ⟨_, [], by simp, rfl⟩ hpos
    have ht : y.normalized = encStr (marked r s) := by
      rw [h4.text, e3]
      have := Norm.cutOut_enc [] (marked r s) []
      simpa using this
    have h1' : z.slice ⟨0, ((blen (marked r s) : Nat) : Int), .normalized⟩ = .ok (some y) := by simpa using h3
    refine ⟨y, ?_, ?_, ht⟩
    · simp only [splitWithIndices, e3, h2, length_encStr, findMatches]
      rw [if_neg (by omega)]
      have h0 : ¬ 0 = blen (marked r s) := by omega
      simp [selectMatches, fillGaps, h0, sliceMatches, h1']
    · rcases segOf_slice hz h1' with h | ⟨k', h⟩
      · rw [ht] at h; exact absurd h (enc_ne hm)
      · have := h.inside
        rw [ht, length_encStr, rights_mark] at this
        obtain rfl : k' = 0 := by omega
        exact h
  have hy : y.normalized ≠ [] := by rw [f3]; exact enc_ne hm
  obtain ⟨rows, g1, g2, g3⟩ := rows_marked hs f2 (by rw [f3, length_encStr]) (0 : Int) qs ts [] hq hne ho
  refine ⟨rows, ?_, g2, g3⟩
  have hts : ts ≠ [] := by
    rintro rfl
    cases qs with
    | nil => exact hm hq.symm
    | cons => cases ho
  have hone : Tk.encodeOne ⟨re, reN, some (normalizerOf E (markNorm r)), none, some f⟩ (encStr s) 0 (-1) .byte = .ok (ofRows rows 0) := by
    have hext : Tk.extractAndNormalize ⟨re, reN, some (normalizerOf E (markNorm r)), none, some f⟩ (encStr s) =
        .ok ⟨encStr s, [⟨y, none⟩]⟩ := by
      simp [Tk.extractAndNormalize, PTS.split, newPTS, splitLoop, k1, keepPieces, hx, Tk.normalizeOrDie, e1, f1, hy]
    have hemp : ts.isEmpty = false := by cases ts with
      | nil => exact absurd rfl hts
      | cons => rfl
    simp only [Tk.encodeOne, hext, Tk.doPreTokenize, Res.bind_ok, Tk.doTokenize, PTS.tokenize, tokenizeLoop, f3, hf, PTS.intoEncoding]
    simp only [rowsOfSplits, charMap, Option.getD_some, List.any_cons, List.any_nil, hemp, if_true, Bool.or_false,
      Bool.false_eq_true, if_false, List.cons_ne_nil, Int.natCast_zero, g1, Res.bind_ok, List.append_nil]
    rfl
  simp only [Tk.encodeSingle, hone, Res.bind_ok]
  have := merge_ofRows 0 [rows] []
  rw [default_ofRows 0]
  simpa using this

theorem type_eq {q : List (Str × Val)} {a b : String} (ha : TypeIs q a) (hb : TypeIs q b) : a.toList = b.toList := by
  unfold TypeIs at ha hb
  rw [ha] at hb
  exact Val.str.inj hb

theorem template_proc {q : List (Str × Val)} {c : ProcCfg} (h : ProcDesc q c) (ht : TypeIs q "TemplateProcessing") :
    ∃ tp, c = .template tp := by
  cases h <;> first
    | exact ⟨_, rfl⟩
    | exact absurd (type_eq (by assumption) ht) (by decide)

theorem template_post {o : Option (List (Str × Val))} {before after : List (Str × Int)} (h : Surrounds o before after)
    (ht : TemplateOrNone o) : ∃ pc, fromSection createProc o = .ok pc ∧ ∀ rows : List Row, ∃ r,
      postProcess none (pc.map procFn) none (ofRows rows 0) none true = .ok (some r) ∧
      r.tokens = before.map (·.1) ++ rows.map (·.token.value) ++ after.map (·.1) ∧
      r.offsets = List.replicate before.length (0, 0) ++ rows.map (·.offsets) ++ List.replicate after.length (0, 0) := by
  obtain ⟨pc, h1, h2⟩ := surrounds_post h
  refine ⟨pc, h1, fun rows => ?_⟩
  obtain ⟨r, k1, _, k3⟩ := h2 rows
  refine ⟨r, k1, k3, ?_⟩
  rcases h with ⟨rfl, rfl, rfl⟩ | ⟨q, rfl, h⟩
  · cases h1
    cases k1
    simp [ofRows]
  · rcases ht with ht | ⟨q', e, ht⟩
    · cases ht
    cases e
    cases h with
    | sequence xs y b a h => exact absurd (type_eq h ht) (by decide)
    | one _ _ h =>
      obtain ⟨c, c1, c2⟩ := one_beside h
      have hc := fromSection_some (C70_postProcessor q _ c1)
      rw [hc] at h1
      cases h1
      obtain ⟨x, r', l1, l2, _, l3, l4⟩ := c2 _ (ofRows_delivered rows 0) (rows_masks rows 0)
      simp only [Option.map_some, postProcess, postTruncate, Res.bind_ok, l2] at k1
      cases k1
      rw [l3.offsets, l4 (template_proc c1 ht)]
      rfl

/-- The tokenizer of such a file. -/
theorem mark_tk {E : FileEnv} {c : FileConfig} {r : Char} {v : List (Str × Int)} {es : List (Str × Str)}
    {before after : List (Str × Int)} (hf : MarkFile E c r v es before after) (s : Str)
    (hadd : ∀ x ∈ c.addedTokens, x.content ≠ [] ∧ x.singleWord = false ∧ ¬ x.content <:+: s ∧ ¬ x.content <:+: marked r s) :
    ∃ (b : Built) (m d : List (Str × Val)) (bm : BpeModel) (re reN : MatchingSet) (pc : Option ProcCfg), fromReader E (some c) = .ok b ∧
      c.model = some m ∧ BpeFile m d v es ∧ createModel m d = .ok (.bpe bm none) ∧ fromSection createProc c.postProcessor = .ok pc ∧
      b.tok = ⟨⟨re, reN, some (normalizerOf E (markNorm r)), none, some (bpeModel E.heap bm)⟩, none, none, pc.map procFn⟩ ∧
      re.engine (encStr s) = [] ∧ reN.engine (encStr (marked r s)) = [] := by
  obtain ⟨m, d, hm, hd, hb, hdec⟩ := hf.model
  obtain ⟨nm, hnm, hnd⟩ := hf.norm
  obtain ⟨bm, m1, m2, m3, m4, m5, _⟩ := bpe_file hb
  have hst := bpe_fresh hb.vocab hb.good m5
  have habs : ∀ t : Str, ∀ x ∈ c.addedTokens, ¬ x.content <:+: t → Absent (some (normalizerOf E (markNorm r))) t x.token := by
    intro t x hx ht
    obtain ⟨h0, h1, _⟩ := hadd x hx
    refine ⟨h0, x.content, h0, ht, fun _ => rfl, fun h => ?_⟩
    exact absurd (h1.symm.trans h) (by simp)
  obtain ⟨T, re, reN, k1, k2, k3, k4, k5, _⟩ := load_quiet hst c.addedTokens E.wordChar
    (norm := some (normalizerOf E (markNorm r))) hf.order s (marked r s)
    (fun x hx _ => habs s x hx (hadd x hx).2.2.1) (fun x hx _ => habs _ x hx (hadd x hx).2.2.2)
  obtain ⟨pc, p1, _⟩ := surrounds_post hf.proc
  have hread := fromReader_ok (E := E) (c := c) (a := .bpe bm none) (n := some (markNorm r)) (pre := none) (proc := pc)
    (dec := some (markDec r)) (tr := none) (by rw [hm, hd]; exact m1)
    (by rw [hnm]; exact fromSection_some (C70_normalizer_partial E.cfg nm _ hnd)) (by rw [hf.pre]; rfl) p1
    (by rw [hd]; exact fromSection_some (C70_decoder_partial d _ hdec)) (by rw [hm]; exact k1) k2 k3 (by rw [hf.truncation]; rfl)
  refine ⟨_, m, d, bm, re, reN, pc, hread, hm, hb, m1, p1, ?_, k4, k5⟩
  simp only [hf.padding, createPadding, Option.map_some, Option.map_none, modelFn]

theorem mark_encode {E : FileEnv} {c : FileConfig} {r : Char} {v : List (Str × Int)} {es : List (Str × Str)}
    {before after : List (Str × Int)} (hf : MarkFile E c r v es before after) (ht : TemplateOrNone c.postProcessor)
    {s : Str} (hs : s ≠ []) (hnul : s.head? ≠ some '\x00') {b : Built} {bm : BpeModel} {re reN : MatchingSet} {pc : Option ProcCfg}
    (h1 : fromSection createProc c.postProcessor = .ok pc)
    (h2 : b.tok = ⟨⟨re, reN, some (normalizerOf E (markNorm r)), none, some (bpeModel E.heap bm)⟩, none, none, pc.map procFn⟩)
    (h3 : re.engine (encStr s) = []) (h4 : reN.engine (encStr (marked r s)) = []) (qs : List Str) (ts : List Token)
    (h5 : bpeModel E.heap bm (encStr (marked r s)) = .ok (some ts)) (hq : qs.flatten = marked r s)
    (hne : ∀ q ∈ qs, q ≠ []) (ho : ts.map (·.offsets) = spansFrom 0 qs) :
    ∃ e, b.tok.encodeSingle (encStr s) [true] = .ok (some e) ∧
      e.tokens = before.map (·.1) ++ ts.map (·.value) ++ after.map (·.1) ∧
      e.offsets = List.replicate before.length (0, 0) ++ markSpots s 0 qs ++ List.replicate after.length (0, 0) := by
  obtain ⟨rows, k1, k2, k3⟩ := mark_rows (E := E) hf.mark hs hnul h3 h4 qs ts h5 hq hne ho
  obtain ⟨pc', p1, p2⟩ := template_post hf.proc ht
  rw [h1] at p1
  cases p1
  obtain ⟨e, e1, e2, e3⟩ := p2 rows
  refine ⟨e, ?_, ?_, by rw [e3, k3]⟩
  · simp only [Tokenizer.encodeSingle, Tokenizer.encode, Tokenizer.encodeWith, h2, k1, Res.bind_ok, List.headD_cons]
    exact e1
  · rw [e2, ← k2, List.map_map]
    rfl

/-! ### C145 -/

/-- C145: the tokens of such a file are pieces of the marked text, and their offsets are the places of these pieces in the text
as it was; the special tokens of the template are at (0, 0). A mark for a space is at the space, and the mark in front belongs to
the first character. Partial: the text is not empty, all its characters are in the vocabulary, no added token occurs in it, and it
does not begin with NUL. -/
theorem C145_places_partial (E : FileEnv) (c : FileConfig) (r : Char) (v : List (Str × Int)) (es : List (Str × Str))
    (before after : List (Str × Int)) (hf : MarkFile E c r v es before after) (ht : TemplateOrNone c.postProcessor)
    (s : Str) (hs : s ≠ []) (hnul : s.head? ≠ some '\x00') (hknown : ∀ ch ∈ marked r s, HasToken v ch)
    (hadd : ∀ x ∈ c.addedTokens, x.content ≠ [] ∧ x.singleWord = false ∧ ¬ x.content <:+: s ∧ ¬ x.content <:+: marked r s) :
    ∃ (b : Built) (e : Encoding) (qs : List Str), fromReader E (some c) = .ok b ∧
      b.tok.encodeSingle (encStr s) [true] = .ok (some e) ∧ qs.flatten = marked r s ∧ (∀ q ∈ qs, q ≠ []) ∧
      e.tokens = before.map (·.1) ++ qs ++ after.map (·.1) ∧
      e.offsets = List.replicate before.length (0, 0) ++ markSpots s 0 qs ++ List.replicate after.length (0, 0) := by
  obtain ⟨b, m, d, bm, re, reN, pc, b1, _, hb, hm, b2, b3, b4, b5⟩ := mark_tk hf s hadd
  obtain ⟨bm', m1, m2, m3, m4, m5, _⟩ := bpe_file hb
  obtain rfl : bm' = bm := by rw [hm] at m1; cases m1; rfl
  obtain ⟨ts, t1, t2, t3, t4⟩ := bpe_known E.heap m2 m3 m4 m5 (marked r s) (by
    intro ch hch
    obtain ⟨i, hi⟩ := hknown ch hch
    exact ⟨i, (mget_mem hb.good.names _ _).2 hi⟩)
  have hne : ∀ q ∈ ts.map (·.value), q ≠ [] := by
    intro q hq
    obtain ⟨t, ht, rfl⟩ := List.mem_map.mp hq
    exact (t3 t ht).1
  obtain ⟨e, e1, e2, e3⟩ := mark_encode hf ht hs hnul b2 b3 b4 b5 (ts.map (·.value)) ts t1 t2 hne t4
  exact ⟨b, e, ts.map (·.value), b1, e1, t2, hne, e2, e3⟩

/-- C145: unknown characters. The file names an unknown token, which is no part of a merge: each character without a token becomes
this token, and its offsets are the place of the character. -/
theorem C145_unknown_partial (E : FileEnv) (c : FileConfig) (r : Char) (v : List (Str × Int)) (es : List (Str × Str))
    (before after : List (Str × Int)) (hf : MarkFile E c r v es before after) (ht : TemplateOrNone c.postProcessor)
    (unk : Str) (ui : Int) (hunk : ∀ m, c.model = some m → IsOpt m "unk_token" .str (some unk)) (hui : (unk, ui) ∈ v)
    (hfree : ∀ e ∈ es, e.1 ≠ unk ∧ e.2 ≠ unk) (s : Str) (hs : s ≠ []) (hnul : s.head? ≠ some '\x00')
    (hadd : ∀ x ∈ c.addedTokens, x.content ≠ [] ∧ x.singleWord = false ∧ ¬ x.content <:+: s ∧ ¬ x.content <:+: marked r s) :
    ∃ (b : Built) (e : Encoding) (qs : List Str), fromReader E (some c) = .ok b ∧
      b.tok.encodeSingle (encStr s) [true] = .ok (some e) ∧ qs.flatten = marked r s ∧
      (∀ q ∈ qs, q ≠ [] ∧ ((mget v q ≠ none ∧ ∀ ch ∈ q, HasToken v ch) ∨ ∃ x, q = [x] ∧ ¬ HasToken v x)) ∧
      e.tokens = before.map (·.1) ++ qs.map (shown v unk) ++ after.map (·.1) ∧
      e.offsets = List.replicate before.length (0, 0) ++ markSpots s 0 qs ++ List.replicate after.length (0, 0) := by
  obtain ⟨b, m, d, bm, re, reN, pc, b1, hcm, hb, hm, b2, b3, b4, b5⟩ := mark_tk hf s hadd
  obtain ⟨bm', m1, m2, m3, m4, m5, m6, m7⟩ := bpe_file hb
  obtain rfl : bm' = bm := by rw [hm] at m1; cases m1; rfl
  have hv : ∀ t i, mget v t = some i ↔ (t, i) ∈ v := mget_mem hb.good.names
  have htok : ∀ ch, mget v [ch] ≠ none ↔ HasToken v ch := by
    intro ch
    rw [Option.ne_none_iff_exists']
    exact exists_congr fun i => hv _ _
  obtain ⟨qs, ts, t1, t2, t3, t4, _, _, t7⟩ := bpe_unknown E.heap m2 m3 m4 m5 (m7 _ (hunk m hcm)) ((hv _ _).2 hui) (by
    intro x y mm hxy
    obtain ⟨e, he, h1, h2⟩ := m6 x y mm hxy
    constructor
    · rintro rfl
      exact (hfree e he).1 (nodup_fst hb.good.ids hui ((hv _ _).1 h1))
    · rintro rfl
      exact (hfree e he).2 (nodup_fst hb.good.ids hui ((hv _ _).1 h2))) (marked r s)
  obtain ⟨e, e1, e2, e3⟩ := mark_encode hf ht hs hnul b2 b3 b4 b5 qs ts t1 t2 (fun q hq => (t3 q hq).1) t7
  refine ⟨b, e, qs, b1, e1, t2, ?_, by rw [e2, t4], e3⟩
  intro q hq
  refine ⟨(t3 q hq).1, ?_⟩
  rcases (t3 q hq).2 with ⟨h1, h2⟩ | ⟨x, h1, h2⟩
  · exact .inl ⟨h1, fun ch hch => (htok ch).1 (h2 ch hch)⟩
  · exact .inr ⟨x, h1, fun h => (htok x).2 h h2⟩

theorem markSpots_at (s : Str) : ∀ (p : List Str) (q : Str) (z : List Str) (k : Nat), (markSpots s k (p ++ q :: z))[p.length]? =
    some ((blen (s.take (k + p.flatten.length - 1)) : Int), (blen (s.take (max 1 (k + p.flatten.length + q.length - 1))) : Int)) := by
  intro p
  induction p with
  | nil => intro q z k; simp [markSpots]
  | cons w p ih =>
    intro q z k
    rw [List.cons_append, markSpots, List.length_cons, List.getElem?_cons_succ, ih]
    simp only [List.flatten_cons, List.length_append, Nat.add_assoc]

/-- C145: what the places say. The text at the place of a piece, with marks for its spaces, is the piece; of the piece at the front
it is what follows the mark, unless the piece is this mark alone. -/
theorem C145_reads (r : Char) (s : Str) (p : List Str) (q : Str) (z : List Str) (h : (p ++ q :: z).flatten = marked r s)
    (hne : ∀ w ∈ p ++ q :: z, w ≠ []) (hlone : p = [] → q ≠ [r]) :
    ∃ u w x, s = u ++ w ++ x ∧ w.map (fun d => if d = ' ' then r else d) = (if p = [] then q.tail else q) ∧ w ≠ [] ∧
      (markSpots s 0 (p ++ q :: z))[p.length]? = some ((blen u : Int), (blen (u ++ w) : Int)) := by
  have hq : q ≠ [] := hne q (by simp)
  have hqn := List.length_pos_iff.mpr hq
  have hs : s ≠ [] := by
    rintro rfl
    rw [marked, if_pos rfl] at h
    simp [hq] at h
  rw [marked, if_neg hs, List.flatten_append, List.flatten_cons, ← List.append_assoc] at h
  rw [markSpots_at]
  simp only [Nat.zero_add]
  have hlen := congrArg List.length h
  simp only [List.length_append, List.length_cons, List.length_map] at hlen
  -- the characters of the piece
  have key : ∀ a n : Nat, a + n ≤ s.length → ∀ w : Str, w = ((s.map (fun d => if d = ' ' then r else d)).drop a).take n →
      ((s.drop a).take n).map (fun d => if d = ' ' then r else d) = w := by
    intro a n _ w hw
    rw [hw, List.map_take, List.map_drop]
  have hcat : ∀ a n : Nat, a + n ≤ s.length → s = s.take a ++ (s.drop a).take n ++ s.drop (a + n) ∧
      s.take (a + n) = s.take a ++ (s.drop a).take n := by
    intro a n _
    have : s.take (a + n) = s.take a ++ (s.drop a).take n := List.take_add
    exact ⟨by rw [← this, List.take_append_drop], this⟩
  by_cases hp : p = []
  · subst hp
    have h : q ++ z.flatten = r :: s.map (fun d => if d = ' ' then r else d) := by simpa using h
    obtain ⟨c, q, rfl⟩ := List.exists_cons_of_ne_nil hq
    simp only [List.cons_append, List.cons.injEq] at h
    obtain ⟨rfl, h⟩ := h
    have hq1 : q ≠ [] := fun e => hlone rfl (by rw [e])
    have hq2 := List.length_pos_iff.mpr hq1
    simp only [List.flatten_nil, List.length_nil, List.length_cons] at hlen ⊢
    obtain ⟨g1, g2⟩ := hcat 0 q.length (by omega)
    refine ⟨s.take 0, (s.drop 0).take q.length, s.drop (0 + q.length), g1, ?_, ?_, ?_⟩
    · simp only [if_true, List.tail_cons]
      apply key 0 q.length (by omega)
      rw [← h]; simp
    · rw [List.drop_zero]
      intro e
      have := congrArg List.length e
      rw [List.length_take, List.length_nil] at this
      omega
    · rw [← g2, show max 1 (0 + (q.length + 1) - 1) = 0 + q.length by omega]
  · have hpf : 0 < p.flatten.length := by
      obtain ⟨w, p, rfl⟩ := List.exists_cons_of_ne_nil hp
      have := List.length_pos_iff.mpr (hne w (by simp))
      rw [List.flatten_cons, List.length_append]; omega
    obtain ⟨g1, g2⟩ := hcat (p.flatten.length - 1) q.length (by omega)
    refine ⟨s.take (p.flatten.length - 1), (s.drop (p.flatten.length - 1)).take q.length,
      s.drop (p.flatten.length - 1 + q.length), g1, ?_, ?_, ?_⟩
    · rw [if_neg hp]
      apply key _ _ (by omega)
      obtain ⟨c, w, hw⟩ := List.exists_cons_of_ne_nil (List.length_pos_iff.mp hpf)
      rw [hw] at h ⊢
      simp only [List.cons_append, List.cons.injEq] at h
      rw [← h.2, List.length_cons, Nat.add_sub_cancel, List.append_assoc, List.drop_left, List.take_left]
    · intro e
      have := congrArg List.length e
      rw [List.length_take, List.length_drop, List.length_nil] at this
      omega
    · rw [← g2, show max 1 (p.flatten.length + q.length - 1) = p.flatten.length - 1 + q.length by omega]

/-- C145 is violated by the mark in front when it is a token of its own, as it is in front of every character that the vocabulary
does not have: it stands for nothing in the text, but its offsets are those of the first character, the same as the offsets of the
token after it. -/
theorem C145_lone_mark_violated (E : FileEnv) (c : FileConfig) (r : Char) (v : List (Str × Int)) (es : List (Str × Str))
    (before after : List (Str × Int)) (hf : MarkFile E c r v es before after) (ht : TemplateOrNone c.postProcessor)
    (unk : Str) (ui : Int) (hunk : ∀ m, c.model = some m → IsOpt m "unk_token" .str (some unk)) (hui : (unk, ui) ∈ v)
    (hfree : ∀ e ∈ es, e.1 ≠ unk ∧ e.2 ≠ unk) (hr : HasToken v r) (d : Char) (hd : ¬ HasToken v d) (hsp : d ≠ ' ')
    (s : Str) (hnul : d ≠ '\x00')
    (hadd : ∀ x ∈ c.addedTokens, x.content ≠ [] ∧ x.singleWord = false ∧ ¬ x.content <:+: d :: s ∧
      ¬ x.content <:+: marked r (d :: s)) :
    ∃ (b : Built) (e : Encoding), fromReader E (some c) = .ok b ∧ b.tok.encodeSingle (encStr (d :: s)) [true] = .ok (some e) ∧
      e.tokens[before.length]? = some [r] ∧ e.offsets[before.length]? = some (0, (d.utf8Size : Int)) ∧
      e.tokens[before.length + 1]? = some unk ∧ e.offsets[before.length + 1]? = some (0, (d.utf8Size : Int)) := by
  obtain ⟨b, e, qs, h1, h2, h3, h4, h5, h6⟩ := C145_unknown_partial E c r v es before after hf ht unk ui hunk hui hfree (d :: s)
    (by simp) (by simpa using hnul) hadd
  have hm : marked r (d :: s) = r :: d :: s.map (fun x => if x = ' ' then r else x) := by simp [marked, hsp]
  rw [hm] at h3
  obtain ⟨rest, rfl⟩ : ∃ rest, qs = [r] :: [d] :: rest := by
    match qs, h3, h4 with
    | [], h3, _ => simp at h3
    | q :: qs, h3, h4 =>
      obtain ⟨x, q, rfl⟩ := List.exists_cons_of_ne_nil (h4 q (by simp)).1
      simp only [List.flatten_cons, List.cons_append, List.cons.injEq] at h3
      obtain ⟨rfl, h3⟩ := h3
      obtain rfl : q = [] := by
        rcases (h4 (x :: q) (by simp)).2 with ⟨_, h⟩ | ⟨y, e, _⟩
        · match q, h3, h with
          | [], _, _ => rfl
          | y :: q, h3, h =>
            simp only [List.cons_append, List.cons.injEq] at h3
            exact absurd (h y (by simp)) (h3.1 ▸ hd)
        · exact (List.cons.inj e).2
      match qs, h3, h4 with
      | [], h3, _ => simp at h3
      | p :: qs, h3, h4 =>
        obtain ⟨y, p, rfl⟩ := List.exists_cons_of_ne_nil (h4 p (by simp)).1
        simp only [List.nil_append, List.flatten_cons, List.cons_append, List.cons.injEq] at h3
        obtain ⟨rfl, h3⟩ := h3
        rcases (h4 (y :: p) (by simp)).2 with ⟨_, h⟩ | ⟨z, e, _⟩
        · exact absurd (h y (by simp)) hd
        · rw [(List.cons.inj e).2]
          exact ⟨qs, rfl⟩
  have hv : ∀ t i, mget v t = some i ↔ (t, i) ∈ v := by
    obtain ⟨m, d, _, _, hb, _⟩ := hf.model
    exact mget_mem hb.good.names
  have hs : ∀ ch, HasToken v ch → shown v unk [ch] = [ch] := by
    rintro ch ⟨i, hi⟩
    rw [shown, (hv _ _).2 hi]
    rfl
  have hs' : shown v unk [d] = unk := by
    unfold shown
    cases hg : mget v [d] with
    | none => rfl
    | some j => exact absurd ⟨j, (hv _ _).1 hg⟩ hd
  refine ⟨b, e, h1, h2, ?_, ?_, ?_, ?_⟩
  · rw [h5, List.append_assoc, List.getElem?_append_right (by simp)]
    simp [hs r hr]
  · rw [h6, List.append_assoc, List.getElem?_append_right (by simp)]
    simp [markSpots, blen_cons]
  · rw [h5, List.append_assoc, List.getElem?_append_right (by simp)]
    simp [hs']
  · rw [h6, List.append_assoc, List.getElem?_append_right (by simp)]
    simp [markSpots, blen_cons]

/-! ### Example -/

example (E : FileEnv) (ho : ∀ l, (E.order l).Perm l) : ∃ (b : Built) (e : Encoding) (qs : List Str),
    fromReader E (some exampleMarkFile) = .ok b ∧ b.tok.encodeSingle (encStr "aé b".toList) [true] = .ok (some e) ∧
    qs.flatten = "▁aé▁b".toList ∧ e.offsets = [(0, 0)] ++ markSpots "aé b".toList 0 qs ++ [] := by
  obtain ⟨b, e, qs, h1, h2, h3, _, _, h4⟩ := C145_unknown_partial E _ _ _ _ _ _ (exampleMark_file E ho)
    (.inr ⟨_, rfl, by unfold TypeIs; rfl⟩) "<unk>".toList 0
    (by intro m hm; cases hm; rfl) (by decide +kernel)
    (by intro e he; cases List.mem_singleton.mp he; decide) "aé b".toList (by decide) (by decide)
    (exampleMark_added _ (by decide))
  exact ⟨b, e, qs, h1, h2, h3, h4⟩

-- "é" has no token
example (E : FileEnv) (ho : ∀ l, (E.order l).Perm l) : ∃ (b : Built) (e : Encoding), fromReader E (some exampleMarkFile) = .ok b ∧
    b.tok.encodeSingle (encStr "éa".toList) [true] = .ok (some e) ∧ e.tokens[1]? = some ['▁'] ∧ e.offsets[1]? = some (0, 2) ∧
    e.tokens[2]? = some "<unk>".toList ∧ e.offsets[2]? = some (0, 2) :=
  C145_lone_mark_violated E _ _ _ _ _ _ (exampleMark_file E ho) (.inr ⟨_, rfl, by unfold TypeIs; rfl⟩) "<unk>".toList 0
    (by intro m hm; cases hm; rfl) (by decide +kernel) (by intro e he; cases List.mem_singleton.mp he; decide)
    ⟨2, by decide +kernel⟩ 'é' (by
      rintro ⟨i, hi⟩
      have : ∀ x ∈ exampleMarkVocab, x.1 ≠ ['é'] := by decide +kernel
      exact this _ hi rfl) (by decide) ['a'] (by decide) (exampleMark_added _ (by decide))

-- "▁a" is at "a", "é" at its two bytes, "▁" at the space
example : markSpots "aé b".toList 0 ["▁a".toList, "é".toList, "▁".toList, "b".toList] = [(0, 1), (1, 3), (3, 4), (4, 5)] := by
  decide +kernel

end Tok.Whole
