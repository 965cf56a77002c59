import Verif.PreTok.Metaspace
import Verif.Norm.PropsReplace
import Verif.Norm.PropsNormalized

/-! C51. -/

namespace Tok.PreTok

open Tok.Norm

/-- A text cut in front of every occurrence of a character. -/
def cutBefore (r : Char) : Str → List Str
  | [] => []
  | c :: s =>
    match cutBefore r s with
    | [] => [[c]]
    | p :: ps => if p.head? = some r then [c] :: p :: ps else (c :: p) :: ps

/-- Byte ranges of consecutive pieces. -/
def rangesOf : Nat → List Str → List (Nat × Nat)
  | _, [] => []
  | a, p :: ps => (a, a + blen p) :: rangesOf (a + blen p) ps

theorem cutBefore_cons (r c : Char) (s : Str) :
    ∃ q ps, cutBefore r (c :: s) = (c :: q) :: ps ∧ r ∉ q ∧ q ++ ps.flatten = s ∧ ∀ p ∈ ps, p ≠ [] := by
  induction s generalizing c with
  | nil => exact ⟨[], [], rfl, by simp, rfl, by simp⟩
  | cons d s ih =>
    obtain ⟨q, ps, h1, h2, h3, h4⟩ := ih d
    rw [cutBefore, h1]
    by_cases hd : d = r
    · refine ⟨[], (d :: q) :: ps, by simp [hd], by simp, by simp [h3], ?_⟩
      intro p hp
      rcases List.mem_cons.mp hp with rfl | hp
      · simp
      · exact h4 p hp
    · refine ⟨d :: q, ps, by simp [hd], ?_, by simp [h3], h4⟩
      simp only [List.mem_cons, not_or]
      exact ⟨fun h => hd h.symm, h2⟩

theorem regroupFrom_start (join : Bool → Bool → Bool) (ms : List Span) : ∀ (m : Span),
    ∃ e l, ∀ s, regroupFrom join s m ms = (s, e) :: l := by
  induction ms with
  | nil => intro m; exact ⟨m.stop, [], fun s => rfl⟩
  | cons x ms ih =>
    intro m
    obtain ⟨e, l, h⟩ := ih x
    by_cases hj : join m.isMatch x.isMatch = true
    · exact ⟨e, l, fun s => by rw [regroupFrom, if_pos hj]; exact h s⟩
    · exact ⟨m.stop, _, fun s => by rw [regroupFrom, if_neg hj]⟩

theorem cutBefore_run (r : Char) (w s : Str) (hne : w ≠ []) (hw : ∀ c ∈ w, (c == r) = false)
    (hs : ∀ c ∈ s.head?, (c == r) = true) : cutBefore r (w ++ s) = w :: cutBefore r s := by
  induction w with
  | nil => exact absurd rfl hne
  | cons c w ih =>
    by_cases h : w = []
    · subst h
      rw [List.singleton_append, cutBefore]
      cases s with
      | nil => rfl
      | cons d s =>
        obtain ⟨q, ps, h1, _⟩ := cutBefore_cons r d s
        have hd : d = r := by simpa using hs d (by simp)
        rw [h1]
        simp [hd]
    · have hw' : ∀ c ∈ w, (c == r) = false := fun d hd => hw d (List.mem_cons_of_mem _ hd)
      rw [List.cons_append, cutBefore, ih h hw']
      cases w with
      | nil => exact absurd rfl h
      | cons d w =>
        have hd : ¬ d = r := by simpa using hw' d (by simp)
        simp [hd]

/-- Merging each match with the text after it cuts in front of every match. -/
theorem regroup_cutBefore (r : Char) {s : Str} {ps : List (Str × Bool)} (h : FnCut (fun c => c == r) s ps) :
    ∀ a, regroup (joins .mergedWithNext) (spansAt a ps) = rangesOf a (cutBefore r s) := by
  induction h with
  | nil => intro a; rfl
  | hit c s ps hc hcut ih =>
    intro a
    have ih := ih (a + blen [c])
    rw [spansAt, regroup]
    cases hcut with
    | nil => simp [spansAt, regroupFrom, cutBefore, rangesOf]
    | hit d s ps hd hcut =>
      have hd' : d = r := by simpa using hd
      obtain ⟨q, qs, hq, _⟩ := cutBefore_cons r d s
      rw [spansAt, regroup] at ih
      rw [spansAt, regroupFrom, if_neg (by simp [joins])]
      have hcc : cutBefore r (c :: d :: s) = [c] :: (d :: q) :: qs := by
        rw [cutBefore, hq]; simp [hd']
      rw [hcc, rangesOf, ← hq, ← ih]
    | run w s ps hne hw hh hcut =>
      cases w with
      | nil => exact absurd rfl hne
      | cons d w =>
        have hd : ¬ d = r := by simpa using hw d (by simp)
        obtain ⟨q, qs, hq, _⟩ := cutBefore_cons r d (w ++ s)
        rw [spansAt, regroup] at ih
        rw [spansAt, regroupFrom, if_pos (by simp [joins])]
        obtain ⟨e, l, hel⟩ := regroupFrom_start (joins .mergedWithNext) (spansAt (a + blen [c] + blen (d :: w)) ps)
          ⟨a + blen [c], a + blen [c] + blen (d :: w), false⟩
        rw [hel] at ih ⊢
        rw [List.cons_append] at ih ⊢
        rw [cutBefore, hq]
        rw [hq] at ih
        simp only [rangesOf, List.head?_cons, Option.some.injEq, hd, if_false, List.cons.injEq, Prod.mk.injEq, true_and] at ih ⊢
        obtain ⟨e1, e2⟩ := ih
        simp only [blen_cons, blen_nil, Nat.add_zero] at e1 e2 ⊢
        rw [e1, e2]
        refine ⟨by omega, ?_⟩
        congr 1
        omega
  | run w s ps hne hw hh hcut ih =>
    intro a
    have ih := ih (a + blen w)
    rw [spansAt, regroup, cutBefore_run r w s hne hw hh, rangesOf, ← ih]
    cases ps with
    | nil => rfl
    | cons p ps =>
      obtain ⟨t, f⟩ := p
      simp only [spansAt]
      rw [regroupFrom, if_neg (by simp [joins]), regroup]

theorem cutOut_rangesOf (pre : Str) (ps : List Str) :
    (rangesOf (blen pre) ps).map (cutOut (encStr (pre ++ ps.flatten))) = ps.map encStr := by
  induction ps generalizing pre with
  | nil => rfl
  | cons p ps ih =>
    have := ih (pre ++ p)
    rw [rangesOf, List.map_cons, List.map_cons, List.flatten_cons]
    congr 1
    · have := cutOut_enc pre p ps.flatten
      rw [blen_append, List.append_assoc] at this
      exact this
    · rw [blen_append, List.append_assoc] at this
      exact this

theorem cutBefore_flatten (r : Char) (s : Str) : (cutBefore r s).flatten = s := by
  cases s with
  | nil => rfl
  | cons c s =>
    obtain ⟨q, ps, h1, _, h3, _⟩ := cutBefore_cons r c s
    rw [h1]; simp [h3]

theorem cutBefore_ne (r : Char) (s : Str) : ∀ p ∈ cutBefore r s, p ≠ [] := by
  cases s with
  | nil => simp [cutBefore]
  | cons c s =>
    obtain ⟨q, ps, h1, _, _, h4⟩ := cutBefore_cons r c s
    rw [h1]
    intro p hp
    rcases List.mem_cons.mp hp with rfl | hp
    · simp
    · exact h4 p hp

/-- The split of Metaspace, on any well-formed text. -/
theorem split_meta {n : NStr} (hw : WF n) {t : Str} (ht : n.normalized = encStr t) (hne : t ≠ []) (r : Char) :
    ∃ xs, n.split (.regexp (classEngine (fun c => c == r))) .mergedWithNext = .ok xs ∧
      xs.map (·.normalized) = (cutBefore r t).map encStr := by
  obtain ⟨ps, hcut⟩ := fnCut_exists (fun c => c == r) t
  have hflat := fnCut_flatten hcut
  have htile : Tiles 0 n.normalized.length (spansAt 0 ps) := by
    rw [ht, length_encStr, ← hflat]
    have := spansAt_tiles ps 0
    simpa using this
  have hbd : ∀ m ∈ spansAt 0 ps, m.start < m.stop ∧ Boundary t m.start ∧ Boundary t m.stop := by
    have := spansAt_bounds ps (fnCut_ne hcut) []
    rw [hflat] at this
    exact this
  obtain ⟨xs, h1, h2, _⟩ := C44_split hw ht (.regexp (classEngine (fun c => c == r))) .mergedWithNext (spansAt 0 ps)
    (by rw [ht]; exact reFind_class _ t hne hcut) htile hbd
  refine ⟨xs, h1, ?_⟩
  rw [if_neg (by decide), regroup_cutBefore r hcut] at h2
  rw [h2.texts, ht]
  have := cutOut_rangesOf [] (cutBefore r t)
  rw [cutBefore_flatten] at this
  simpa using this

theorem keepPieces_map (xs : List NStr) (h : ∀ x ∈ xs, x.normalized ≠ []) :
    keepPieces (xs.map (fun x => ⟨some x, none⟩)) = .ok (xs.map (fun x => ⟨x, none⟩)) := by
  induction xs with
  | nil => rfl
  | cons x xs ih =>
    rw [List.map_cons, keepPieces]
    simp only [ih (fun y hy => h y (List.mem_cons_of_mem _ hy)), Res.bind_ok, if_neg (h x List.mem_cons_self), List.map_cons]

/-- What the text becomes. -/
def metaText (r : Char) (addPrefix : Bool) (s : Str) : Str :=
  let t := s.map (fun c => if isSpace c then r else c)
  if addPrefix ∧ t ≠ [] ∧ t.head? ≠ some r then r :: t else t

theorem isPrefixOf_enc (r : Char) (t : Str) : (encStr [r]).isPrefixOf (encStr t) = decide (t.head? = some r) := by
  cases t with
  | nil =>
    have := enc_ne_nil r
    rw [encStr_cons, encStr_nil, List.append_nil]
    cases h : String.utf8EncodeChar r with
    | nil => exact absurd h this
    | cons b bs => rfl
  | cons c t =>
    by_cases h : c = r
    · subst h
      rw [List.head?_cons, decide_eq_true rfl, List.isPrefixOf_iff_prefix]
      rw [encStr_cons, encStr_cons]; simp
    · have : ¬ (some c = some r) := by simpa using h
      rw [List.head?_cons, decide_eq_false this]
      rw [Bool.eq_false_iff]
      intro hp
      rw [List.isPrefixOf_iff_prefix] at hp
      obtain ⟨x, hx⟩ := hp
      have h1 := decodeRune_enc c (encStr t)
      have h2 := decodeRune_enc r x
      rw [encStr_cons, encStr_nil, List.append_nil, encStr_cons] at hx
      rw [hx, h1] at h2
      injection h2 with h2
      exact h h2

theorem metaText_pieces (m : Metaspace) (r : Char) (hrep : m.rep = [r]) (heng : m.engine = classEngine (fun c => c == r))
    (addPrefix : Bool) (hadd : ∀ n, m.prepends 0 n = (addPrefix && !(encStr m.rep).isPrefixOf n.normalized))
    (s : Str) (hnul : addPrefix = true → s.head? ≠ some '\x00') :
    ∃ pt', m.preTokenize (newPTS (encStr s)) = .ok pt' ∧
      pt'.splits.map (fun x => x.normalized.normalized) = (cutBefore r (metaText r addPrefix s)).map encStr := by
  obtain ⟨n1, h1, h2, h3, _, h5, h6⟩ := C61_class isSpace s [r]
  have ht : s.flatMap (fun c => if isSpace c then [r] else [c]) = s.map (fun c => if isSpace c then r else c) := by
    clear h1 h2 h3 h5 h6 hnul
    induction s with
    | nil => rfl
    | cons c s ih => rw [List.flatMap_cons, ih, List.map_cons]; split <;> rfl
  rw [ht] at h2
  generalize htdef : s.map (fun c => if isSpace c then r else c) = t at h2
  have hpre : (encStr m.rep).isPrefixOf n1.normalized = decide (t.head? = some r) := by
    rw [hrep, h2, isPrefixOf_enc]
  -- after the prefix
  have hstep : ∃ n2, m.withPrefix 0 n1 = .ok n2 ∧
      n2.normalized = encStr (metaText r addPrefix s) ∧ WF n2 := by
    unfold metaText Metaspace.withPrefix
    rw [hadd, hpre]
    simp only [htdef]
    by_cases ha : addPrefix = true
    · by_cases hh : t.head? = some r
      · rw [if_neg (by simp [hh]), if_neg (by simp [hh])]
        exact ⟨n1, rfl, h2, h5⟩
      · by_cases hte : t = []
        · have hn1 : n1.normalized = [] := by rw [h2, hte]; rfl
          rw [if_pos (by simp [ha, hh]), if_neg (by simp [hte]), (C42_empty_violated n1 _ hn1).1]
          exact ⟨n1, rfl, h2, h5⟩
        · rw [if_pos (by simp [ha, hh]), if_pos ⟨ha, hte, hh⟩, hrep]
          cases ht' : t with
          | nil => exact absurd ht' hte
          | cons c cs =>
            rw [ht'] at h2
            obtain ⟨p1, p2⟩ := prepend_items [r] c
            have hlen := String.length_utf8EncodeChar c
            unfold NStr.prepend
            rw [h2, runes_encStr, runes_encStr]
            have hb : c.utf8Size ≤ n1.normalized.length := by rw [h2, length_encStr, blen_cons]; omega
            have htk : (n1.normalized.take c.utf8Size).drop 0 = encStr [c] := by
              rw [h2, encStr_cons, ← hlen, List.take_left]; simp
            have hd : n1.normalized.drop c.utf8Size = encStr cs := by
              rw [h2, encStr_cons, ← hlen, List.drop_left]
            obtain ⟨n2, e1, e2, e3⟩ := transformRange_ok h5 (a := 0) (b := c.utf8Size)
              (items := prependItems [r] c) (by omega) hb htk (by simpa using p2)
            have hcn : '\x00' ∉ [c] := by
              intro hm
              have hc : c = '\x00' := by simpa using (List.mem_singleton.mp hm).symm
              have hnul := hnul ha
              cases s with
              | nil => rw [← htdef] at ht'; cases ht'
              | cons d s =>
                rw [← htdef, List.map_cons] at ht'
                injection ht' with hd' _
                by_cases hsp : isSpace d = true
                · rw [if_pos hsp] at hd'
                  rw [← htdef, List.map_cons, List.head?_cons, if_pos hsp] at hh
                  exact hh rfl
                · rw [if_neg hsp, hc] at hd'
                  exact hnul (by simp [hd'])
            refine ⟨n2, e1, ?_, e2.wf (e3 hcn).2⟩
            rw [e2.text, p1, hd]
            simp
    · have : addPrefix = false := by simpa using ha
      subst this
      rw [if_neg (by simp), if_neg (by simp)]
      exact ⟨n1, rfl, h2, h5⟩
  obtain ⟨n2, g1, g2, g3⟩ := hstep
  by_cases hte : metaText r addPrefix s = []
  · -- empty text
    have hs : s = [] := by
      cases s with
      | nil => rfl
      | cons c s =>
        exfalso
        unfold metaText at hte
        simp only at hte
        split at hte
        · cases hte
        · cases hte
    subst hs
    have hsp : ∃ xs, n2.split (.regexp m.engine) .mergedWithNext = .ok xs ∧ ∀ x ∈ xs, x.normalized = [] := by
      rw [hte] at g2
      have hf : Pat.find (.regexp m.engine) n2.normalized = .ok [⟨0, 0, false⟩] := by rw [g2]; rfl
      have hk : keptSpans .mergedWithNext [⟨0, 0, false⟩] = [(0, 0)] := by decide
      have hsl : ∃ x, n2.slice ⟨((0 : Nat) : Int), ((0 : Nat) : Int), .normalized⟩ = .ok (some x) ∧ x.normalized = [] := by
        have hv : n2.validate ⟨((0 : Nat) : Int), ((0 : Nat) : Int), .normalized⟩ = .ok (some ⟨0, 0, .normalized⟩) := by
          unfold NStr.validate
          rw [g2]
          rfl
        have hc : n2.convert ⟨0, 0, .normalized⟩ = .ok (some ⟨0, 0, .normalized⟩) := by
          unfold NStr.convert
          rw [g2]
          rfl
        have hz : ∀ (α : Type) (l : List α), slc l 0 0 = .ok [] := by
          intro α l
          rw [slc_ok (by omega) (by omega) (by omega)]
          simp
        have hr : n2.range ⟨0, 0, .normalized⟩ = .ok [] := by
          unfold NStr.range
          rw [g2]
          rfl
        have hro : n2.rangeOriginal ⟨0, 0, .normalized⟩ = .ok [] := by
          unfold NStr.rangeOriginal
          rw [hc]
          simp only [Res.bind_ok]
          exact hz _ _
        unfold NStr.slice
        rw [hv]
        simp only [Res.bind_ok]
        rw [hc]
        simp only [Res.bind_ok, hz, hr, hro]
        exact ⟨_, rfl, rfl⟩
      obtain ⟨x, hx, hx2⟩ := hsl
      refine ⟨[x], ?_, by simpa using hx2⟩
      unfold NStr.split
      rw [hf]
      simp only [Res.bind_ok, hk, NStr.splitAt, hx]
    obtain ⟨xs, hx1, hx2⟩ := hsp
    have hkeep : keepPieces (xs.map (fun x => ⟨some x, none⟩)) = .ok [] := by
      clear hx1
      induction xs with
      | nil => rfl
      | cons x xs ih =>
        rw [List.map_cons, keepPieces]
        simp only [ih (fun y hy => hx2 y (List.mem_cons_of_mem _ hy)), Res.bind_ok, if_pos (hx2 x List.mem_cons_self)]
    refine ⟨⟨encStr [], []⟩, ?_, by rw [hte]; rfl⟩
    have hfn : m.splitFn 0 (newNStr (encStr [])) = .ok (xs.map (fun x => ⟨some x, none⟩)) := by
      unfold Metaspace.splitFn
      rw [hrep]
      simp only [h1, Res.bind_ok, g1, hx1]
    unfold Metaspace.preTokenize PTS.split newPTS
    simp only [splitLoop, hfn, hkeep, Res.bind_ok, List.append_nil]
  · obtain ⟨xs, hx1, hx2⟩ := split_meta g3 g2 hte r
    have hne : ∀ x ∈ xs, x.normalized ≠ [] := by
      intro x hx
      have : x.normalized ∈ (cutBefore r (metaText r addPrefix s)).map encStr := by
        rw [← hx2]; exact List.mem_map_of_mem hx
      obtain ⟨p, hp, e⟩ := List.mem_map.mp this
      have hpne := cutBefore_ne r _ p hp
      rw [← e]
      intro h0
      apply hpne
      exact encStr_inj (by rw [h0]; rfl)
    have hfn : m.splitFn 0 (newNStr (encStr s)) = .ok (xs.map (fun x => ⟨some x, none⟩)) := by
      unfold Metaspace.splitFn
      rw [heng, hrep]
      simp only [h1, Res.bind_ok, g1, hx1]
    refine ⟨⟨encStr s, xs.map (fun x => ⟨x, none⟩)⟩, ?_, ?_⟩
    · unfold Metaspace.preTokenize PTS.split newPTS
      simp only [splitLoop, hfn, keepPieces_map xs hne, Res.bind_ok, List.append_nil]
    · rw [← hx2]
      simp only [List.map_map]
      rfl

/-! ### Decoding -/

/-- The replacement read back as a space. -/
def unmeta (r : Char) (t : Str) : Str := t.map (fun c => if c = r then ' ' else c)

theorem decodeToken_later (m : Metaspace) (r : Char) (hrep : m.rep = [r]) (i : Nat) (hi : i = 0 → m.addPrefix = false)
    (t : Str) : m.decodeToken i t = unmeta r t := by
  unfold Metaspace.decodeToken unmeta
  induction t with
  | nil => rfl
  | cons c t ih =>
    rw [List.flatMap_cons, ih, List.map_cons, hrep]
    have hif : ¬ (i = 0 ∧ m.addPrefix = true) := by
      rintro ⟨h1, h2⟩
      rw [hi h1] at h2; cases h2
    by_cases h : c = r
    · simp [h, hif]
    · simp [h]

theorem decodeChain_later (m : Metaspace) (r : Char) (hrep : m.rep = [r]) (ts : List Str) :
    ∀ k, (k = 0 → m.addPrefix = false) → ((ts.zipIdx k).map (fun p => m.decodeToken p.2 p.1)).flatten = unmeta r ts.flatten := by
  induction ts with
  | nil => intro k _; rfl
  | cons t ts ih =>
    intro k hk
    rw [List.zipIdx_cons, List.map_cons, List.flatten_cons, decodeToken_later m r hrep k hk, ih (k + 1) (by omega),
      List.flatten_cons]
    simp [unmeta]

theorem decode_cut (m : Metaspace) (r : Char) (hrep : m.rep = [r]) (t : Str) :
    m.decode (cutBefore r t) =
      if m.addPrefix ∧ t.head? = some r then unmeta r t.tail else unmeta r t := by
  unfold Metaspace.decode Metaspace.decodeChain
  by_cases ha : m.addPrefix = true
  · cases t with
    | nil => rw [if_neg (by simp)]; rfl
    | cons c s =>
      obtain ⟨q, ps, h1, h2, h3, _⟩ := cutBefore_cons r c s
      rw [h1, List.zipIdx_cons, List.map_cons, List.flatten_cons, decodeChain_later m r hrep ps (0 + 1) (by omega)]
      have hq : ∀ q : Str, r ∉ q → m.decodeToken 0 q = unmeta r q := by
        intro q hq
        unfold Metaspace.decodeToken unmeta
        induction q with
        | nil => rfl
        | cons d q ih =>
          have hd : ¬ d = r := fun h => hq (by simp [h])
          rw [List.flatMap_cons, ih (fun h => hq (List.mem_cons_of_mem _ h)), List.map_cons, hrep]
          simp [hd]
      have hcq : m.decodeToken 0 (c :: q) = (if c = r then [] else [c]) ++ unmeta r q := by
        rw [← hq q h2]
        unfold Metaspace.decodeToken
        rw [List.flatMap_cons, hrep]
        congr 1
        by_cases h : c = r
        · simp [h, ha]
        · simp [h]
      rw [hcq]
      have hu : unmeta r s = unmeta r q ++ unmeta r ps.flatten := by rw [← h3]; simp [unmeta]
      by_cases h : c = r
      · rw [if_pos h, if_pos ⟨ha, by simp [h]⟩, List.tail_cons, hu]; rfl
      · rw [if_neg h, if_neg (by simp [h])]
        have : unmeta r (c :: s) = c :: unmeta r s := by simp [unmeta, h]
        rw [this, hu]; simp
  · rw [if_neg (fun h => ha h.1), decodeChain_later m r hrep _ 0 (fun _ => by simpa using ha), cutBefore_flatten]

/-- White space as spaces. -/
def spaced (s : Str) : Str := s.map (fun c => if isSpace c then ' ' else c)

theorem unmeta_meta (r : Char) (s : Str) (hr : r ∉ s) :
    unmeta r (s.map (fun c => if isSpace c then r else c)) = spaced s := by
  unfold unmeta spaced
  rw [List.map_map]
  apply List.map_congr_left
  intro c hc
  have : ¬ c = r := fun h => hr (h ▸ hc)
  by_cases h : isSpace c = true
  · simp [h]
  · simp [h, this]

/-- C51, what the round trip gives, for all texts without the replacement character: white space
comes back as spaces, and with a prefix a leading white space is lost. (With a prefix, the text
must not begin with the NUL character.) -/
theorem C51_result_partial (r : Char) (addPrefix : Bool) (s : Str) (hr : r ∉ s)
    (hnul : addPrefix = true → s.head? ≠ some '\x00') :
    ∃ pt' toks, (newMetaspace r addPrefix).preTokenize (newPTS (encStr s)) = .ok pt' ∧
      pt'.splits.map (fun x => x.normalized.normalized) = toks.map encStr ∧
      (newMetaspace r addPrefix).decode toks =
        if addPrefix ∧ s.head?.any isSpace then spaced s.tail else spaced s := by
  have hadd : ∀ n, (newMetaspace r addPrefix).prepends 0 n =
      (addPrefix && !(encStr (newMetaspace r addPrefix).rep).isPrefixOf n.normalized) := by
    intro n
    cases addPrefix <;> rfl
  obtain ⟨pt', h1, h2⟩ := metaText_pieces (newMetaspace r addPrefix) r rfl rfl addPrefix hadd s hnul
  refine ⟨pt', _, h1, h2, ?_⟩
  rw [decode_cut _ r rfl]
  have hap : (newMetaspace r addPrefix).addPrefix = addPrefix := rfl
  rw [hap]
  unfold metaText
  simp only
  cases addPrefix with
  | false => simp [unmeta_meta r s hr]
  | true =>
    cases s with
    | nil => simp [unmeta, spaced]
    | cons c s =>
      have hc : ¬ c = r := fun h => hr (by simp [h])
      have hrs : r ∉ s := fun h => hr (List.mem_cons_of_mem _ h)
      by_cases h : isSpace c = true
      · simp [h, unmeta_meta r s hrs]
      · have := unmeta_meta r (c :: s) hr
        simp only [List.map_cons, if_neg h] at this
        simp [h, hc, this]

/-- C51 holds for texts whose only white space is the space, unless a prefix is added and the text
begins with a space. -/
theorem C51_roundtrip_partial (r : Char) (addPrefix : Bool) (s : Str) (hr : r ∉ s)
    (hsp : ∀ c ∈ s, isSpace c = true → c = ' ')
    (hnul : addPrefix = true → s.head? ≠ some '\x00' ∧ s.head? ≠ some ' ') :
    ∃ pt' toks, (newMetaspace r addPrefix).preTokenize (newPTS (encStr s)) = .ok pt' ∧
      pt'.splits.map (fun x => x.normalized.normalized) = toks.map encStr ∧
      (newMetaspace r addPrefix).decode toks = s := by
  obtain ⟨pt', toks, h1, h2, h3⟩ := C51_result_partial r addPrefix s hr (fun h => (hnul h).1)
  refine ⟨pt', toks, h1, h2, ?_⟩
  have hs : spaced s = s := by
    unfold spaced
    conv => rhs; rw [← List.map_id s]
    apply List.map_congr_left
    intro c hc
    by_cases h : isSpace c = true
    · simp [hsp c hc h]
    · simp [h]
  rw [h3, if_neg, hs]
  rintro ⟨ha, hh⟩
  cases s with
  | nil => simp at hh
  | cons c s =>
    have : c = ' ' := hsp c (by simp) (by simpa using hh)
    exact (hnul ha).2 (by simp [this])

theorem encStr_list_inj {a b : List Str} (h : a.map encStr = b.map encStr) : a = b := by
  induction a generalizing b with
  | nil => cases b with
    | nil => rfl
    | cons _ _ => cases h
  | cons x a ih =>
    cases b with
    | nil => cases h
    | cons y b =>
      injection h with h1 h2
      rw [encStr_inj h1, ih h2]

/-- C51 fails with a prefix for every text that begins with a space: it comes back shorter. -/
theorem C51_leading_violated (r : Char) (s : Str) (hr : r ∉ ' ' :: s) (pt' : PTS) (toks : List Str)
    (h : (newMetaspace r true).preTokenize (newPTS (encStr (' ' :: s))) = .ok pt')
    (ht : pt'.splits.map (fun x => x.normalized.normalized) = toks.map encStr) :
    (newMetaspace r true).decode toks = spaced s ∧ (newMetaspace r true).decode toks ≠ ' ' :: s := by
  obtain ⟨pt2, toks2, h1, h2, h3⟩ := C51_result_partial r true (' ' :: s) hr (fun _ => by simp)
  rw [h] at h1
  injection h1 with h1
  subst h1
  rw [ht] at h2
  have := encStr_list_inj h2
  subst this
  rw [if_pos ⟨rfl, by simp [isSpace]⟩, List.tail_cons] at h3
  refine ⟨h3, ?_⟩
  rw [h3]
  intro he
  have := congrArg List.length he
  simp [spaced] at this

/-- C51 fails for every text with a tab, newline, form feed or carriage return. -/
theorem C51_space_violated (r : Char) (s : Str) (hr : r ∉ s) (c : Char) (hc : c ∈ s) (hsp : isSpace c = true)
    (hne : c ≠ ' ') (pt' : PTS) (toks : List Str)
    (h : (newMetaspace r false).preTokenize (newPTS (encStr s)) = .ok pt')
    (ht : pt'.splits.map (fun x => x.normalized.normalized) = toks.map encStr) :
    (newMetaspace r false).decode toks ≠ s := by
  obtain ⟨pt2, toks2, h1, h2, h3⟩ := C51_result_partial r false s hr (fun h => by cases h)
  rw [h] at h1
  injection h1 with h1
  subst h1
  rw [ht] at h2
  have := encStr_list_inj h2
  subst this
  rw [if_neg (by simp)] at h3
  rw [h3]
  intro he
  rw [← he] at hc
  unfold spaced at hc
  obtain ⟨d, _, hd⟩ := List.mem_map.mp hc
  by_cases h : isSpace d = true
  · rw [if_pos h] at hd; exact hne hd.symm
  · rw [if_neg h] at hd; subst hd; exact h hsp

/-- On a text not yet split, the scheme `First` does what `Always` does. -/
theorem C51_first (r : Char) (text : List UInt8) :
    (newMetaspaceWithScheme r .first).preTokenize (newPTS text) = (newMetaspace r true).preTokenize (newPTS text) ∧
      ∀ toks, (newMetaspaceWithScheme r .first).decode toks = (newMetaspace r true).decode toks := by
  refine ⟨?_, fun toks => rfl⟩
  unfold Metaspace.preTokenize PTS.split newPTS
  simp only [splitLoop]
  rfl

/-- In a text that is already split, `NewMetaspace` with a prefix treats every split as the first one; the scheme
`First` treats the others as without a prefix. -/
theorem C51_every_split (r : Char) (i : Nat) (n : NStr) :
    (newMetaspace r true).splitFn i n = (newMetaspace r true).splitFn 0 n ∧
    (newMetaspaceWithScheme r .always).splitFn i n = (newMetaspace r true).splitFn 0 n ∧
    (newMetaspaceWithScheme r .first).splitFn (i + 1) n = (newMetaspace r false).splitFn 0 n := ⟨rfl, rfl, rfl⟩

/-- "Hey  you" with the usual replacement. -/
example : cutBefore '▁' (metaText '▁' true "Hey  you".toList) = ["▁Hey".toList, "▁".toList, "▁you".toList] := by
  decide +kernel
example : (newMetaspace '▁' true).decode ["▁Hey".toList, "▁".toList, "▁you".toList] = "Hey  you".toList := by
  decide +kernel

end Tok.PreTok
