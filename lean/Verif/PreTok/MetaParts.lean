import Verif.PreTok.PropsMetaspace
import Verif.PreTok.PropsOriginReplace
import Verif.Regex.PropsCuts

/-!
# Metaspace on parts of a text and on finer tokens
-/

namespace Tok.PreTok

open Tok.Norm Tok.Regex

/-- `Replace` of a class of characters on a part of a text that has not been changed. -/
theorem fresh_replace_class {x : NStr} {m : Str} (hx : Fresh x m) (hm : m ≠ []) (f : Char → Bool) (content : Str) :
    ∃ y, x.replace (.regexp (classEngine f)) (encStr content) = .ok y ∧
      y.normalized = encStr (m.flatMap (fun c => if f c then content else [c])) ∧ WF y := by
  obtain ⟨ps, hcut⟩ := fnCut_exists f m
  have hflat := fnCut_flatten hcut
  have h0 := rinv_fresh hx
  rw [← hflat] at h0
  obtain ⟨y, h1, h2⟩ := replaceLoop_exact content ps (fnCut_ne hcut) (off := 0) h0 (by simp)
  have hn : y.normalized = encStr (replacedText content ps) := by have := h2.normalized; simpa using this
  have ho : y.original = encStr (ps.map (·.1)).flatten := by have := h2.original; simpa using this
  have ha : y.aligns = replacedAligns content 0 ps := by have := h2.aligns; simpa [byteRanges] using this
  refine ⟨y, ?_, ?_, ?_, ?_, ?_, ?_⟩
  · unfold NStr.replace
    rw [hx.text, reFind_class f m hm hcut, runes_encStr]
    exact h1
  · rw [hn]
    congr 1
    unfold replacedText
    clear h1 h2 hn ho ha hflat hm h0 hx
    induction hcut with
    | nil => rfl
    | hit c s ps hc _ ih => simp [hc, ih]
    | run r s ps _ hr _ _ ih =>
      rw [List.flatMap_cons, ih, List.flatMap_append]
      congr 1
      simp only [Bool.false_eq_true, if_false]
      have run : ∀ r : Str, (∀ c ∈ r, f c = false) → r = r.flatMap (fun c => if f c then content else [c]) := by
        intro r hr
        induction r with
        | nil => rfl
        | cons d r ih =>
          rw [List.flatMap_cons, hr d List.mem_cons_self, ← ih (fun x hx => hr x (List.mem_cons_of_mem _ hx))]; rfl
      exact run r hr
  · have := h2.lenA
    rw [ha, hn, length_encStr]
    simpa using this
  · rw [h2.lenO, ho, length_encStr]; simp
  · intro q hq
    rw [ha] at hq
    have := replacedAligns_mem hq
    rw [ho, length_encStr]
    omega
  · rw [ha]; exact replacedAligns_nd content ps 0

/-- The prefix, on any well-formed text. -/
theorem withPrefix_meta {m : Metaspace} {r : Char} (hrep : m.rep = [r]) {i : Nat} {a : Bool} {n : NStr}
    (hadd : m.prepends i n = (a && !(encStr m.rep).isPrefixOf n.normalized)) {t : Str} (ht : n.normalized = encStr t)
    (hw : WF n) (hte : t ≠ []) (hnul : a = true → t.head? ≠ some r → t.head? ≠ some '\x00') :
    ∃ n2, m.withPrefix i n = .ok n2 ∧
      n2.normalized = encStr (if a ∧ t.head? ≠ some r then r :: t else t) ∧ WF n2 := by
  have hpre : (encStr m.rep).isPrefixOf n.normalized = decide (t.head? = some r) := by
    rw [hrep, ht, isPrefixOf_enc]
  unfold Metaspace.withPrefix
  rw [hadd, hpre]
  by_cases ha : a = true
  · by_cases hh : t.head? = some r
    · rw [if_neg (by simp [hh]), if_neg (by simp [hh])]
      exact ⟨n, rfl, ht, hw⟩
    · rw [if_pos (by simp [ha, hh]), if_pos ⟨ha, hh⟩, hrep]
      cases t with
      | nil => exact absurd rfl hte
      | cons c cs =>
        obtain ⟨p1, p2⟩ := prepend_items [r] c
        have hlen := String.length_utf8EncodeChar c
        unfold NStr.prepend
        rw [ht, runes_encStr, runes_encStr]
        have hb : c.utf8Size ≤ n.normalized.length := by rw [ht, length_encStr, blen_cons]; omega
        have htk : (n.normalized.take c.utf8Size).drop 0 = encStr [c] := by
          rw [ht, encStr_cons, ← hlen, List.take_left]; simp
        have hd : n.normalized.drop c.utf8Size = encStr cs := by
          rw [ht, encStr_cons, ← hlen, List.drop_left]
        obtain ⟨n2, e1, e2, e3⟩ := transformRange_ok hw (a := 0) (b := c.utf8Size)
          (items := prependItems [r] c) (by omega) hb htk (by simpa using p2)
        have hcn : '\x00' ∉ [c] := by
          intro hm
          exact hnul ha hh (by rw [List.head?_cons, List.mem_singleton.mp hm])
        refine ⟨n2, e1, ?_, e2.wf (e3 hcn).2⟩
        rw [e2.text, p1, hd]
        simp
  · have : a = false := by simpa using ha
    subst this
    rw [if_neg (by simp), if_neg (by simp)]
    exact ⟨n, rfl, ht, hw⟩

theorem slicesOf_wf {n : NStr} (qs : List (Nat × Nat)) : ∀ xs : List NStr, SlicesOf n qs xs → ∀ x ∈ xs, WF x := by
  induction qs with
  | nil =>
    intro xs h
    cases xs with
    | nil => simp
    | cons x xs => exact h.elim
  | cons q qs ih =>
    intro xs h
    cases xs with
    | nil => exact h.elim
    | cons x xs =>
      intro y hy
      rcases List.mem_cons.mp hy with rfl | hy
      · exact h.2.1
      · exact ih xs h.2.2 y hy

/-- The split of Metaspace gives well-formed pieces. -/
theorem split_meta_wf {n : NStr} (hw : WF n) {t : Str} (ht : n.normalized = encStr t) (hne : t ≠ []) (r : Char) :
    ∃ xs, n.split (.regexp (classEngine (fun c => c == r))) .mergedWithNext = .ok xs ∧
      xs.map (·.normalized) = (cutBefore r t).map encStr ∧ ∀ x ∈ xs, WF x := by
  obtain ⟨ps, hcut⟩ := fnCut_exists (fun c => c == r) t
  have hflat := fnCut_flatten hcut
  have htile : Tiles 0 n.normalized.length (spansAt 0 ps) := by
    rw [ht, length_encStr, ← hflat]
    have := spansAt_tiles ps 0
    simpa using this
  have hbd : ∀ m ∈ spansAt 0 ps, m.start < m.stop ∧ Boundary t m.start ∧ Boundary t m.stop := by
    have := spansAt_bounds ps (fnCut_ne hcut) []
    rw [hflat] at this
    exact this
  obtain ⟨xs, h1, h2, _⟩ := C44_split hw ht (.regexp (classEngine (fun c => c == r))) .mergedWithNext (spansAt 0 ps)
    (by rw [ht]; exact reFind_class _ t hne hcut) htile hbd
  refine ⟨xs, h1, ?_, ?_⟩
  · rw [if_neg (by decide), regroup_cutBefore r hcut] at h2
    rw [h2.texts, ht]
    have := cutOut_rangesOf [] (cutBefore r t)
    rw [cutBefore_flatten] at this
    simpa using this
  · exact slicesOf_wf _ _ h2

theorem map_flat (r : Char) (s : Str) :
    s.flatMap (fun c => if isSpace c then [r] else [c]) = s.map (fun c => if isSpace c then r else c) := by
  induction s with
  | nil => rfl
  | cons c s ih => rw [List.flatMap_cons, ih, List.map_cons]; split <;> rfl

theorem metaText_ne {r : Char} {a : Bool} {s : Str} (h : s ≠ []) : metaText r a s ≠ [] := by
  unfold metaText
  cases s with
  | nil => exact absurd rfl h
  | cons c s =>
    simp only
    split
    · simp
    · simp

/-- Metaspace on a whole text that has not been changed. -/
theorem meta_holding (m : Metaspace) (r : Char) (hrep : m.rep = [r]) (heng : m.engine = classEngine (fun c => c == r))
    (a : Bool) (hadd : ∀ n, m.prepends 0 n = (a && !(encStr m.rep).isPrefixOf n.normalized))
    {s : Str} (hs : s ≠ []) (hnul : a = true → s.head? ≠ some '\x00') {y : NStr} (hy : Fresh y s) (text : List UInt8) :
    ∃ pt', m.preTokenize ⟨text, [⟨y, none⟩]⟩ = .ok pt' ∧
      Holding pt' ((cutBefore r (metaText r a s)).map (fun w => (w, none))) := by
  obtain ⟨n1, h1, h2, h3⟩ := fresh_replace_class hy hs isSpace [r]
  rw [map_flat] at h2
  have hne : s.map (fun c => if isSpace c then r else c) ≠ [] := by simpa using hs
  obtain ⟨n2, k1, k2, k3⟩ := withPrefix_meta hrep (hadd n1) h2 h3 hne (by
    intro ha hh
    cases s with
    | nil => exact absurd rfl hs
    | cons d s =>
      rw [List.map_cons, List.head?_cons] at hh ⊢
      have := hnul ha
      by_cases hsp : isSpace d = true
      · rw [if_pos hsp] at hh; exact absurd rfl hh
      · rw [if_neg hsp]; simpa using this)
  have hmt : metaText r a s = if a ∧ (s.map (fun c => if isSpace c then r else c)).head? ≠ some r then
      r :: s.map (fun c => if isSpace c then r else c) else s.map (fun c => if isSpace c then r else c) := by
    unfold metaText
    simp only [hne, ne_eq, not_false_eq_true, true_and]
  rw [← hmt] at k2
  obtain ⟨xs, e1, e2, e3⟩ := split_meta_wf k3 k2 (metaText_ne hs) r
  have hx : ∀ x ∈ xs, x.normalized ≠ [] := by
    intro x hx
    have : x.normalized ∈ (cutBefore r (metaText r a s)).map encStr := by
      rw [← e2]; exact List.mem_map_of_mem hx
    obtain ⟨p, hp, e⟩ := List.mem_map.mp this
    have hpne := cutBefore_ne r _ p hp
    rw [← e]
    intro h0
    apply hpne
    exact encStr_inj (by rw [h0]; rfl)
  have hfn : m.splitFn 0 y = .ok (xs.map (fun x => ⟨some x, none⟩)) := by
    unfold Metaspace.splitFn
    rw [heng, hrep]
    simp only [h1, Res.bind_ok, k1, e1]
  refine ⟨⟨text, xs.map (fun x => ⟨x, none⟩)⟩, ?_, ?_, ?_, ?_⟩
  · unfold Metaspace.preTokenize PTS.split
    simp only [splitLoop, hfn, keepPieces_map xs hx, Res.bind_ok, List.append_nil]
  · rw [List.map_map, List.map_map]
    have := congrArg (List.map (fun b => ((b, none) : List UInt8 × Option (List Token)))) e2
    rw [List.map_map, List.map_map] at this
    exact this
  · intro w hw _
    obtain ⟨p, hp, rfl⟩ := List.mem_map.mp hw
    exact cutBefore_ne r _ p hp
  · intro sp hsp
    obtain ⟨x, hx, rfl⟩ := List.mem_map.mp hsp
    exact e3 x hx

/-- Decoding tokens that are finer than the pieces: the first of them may have the replacement in front. -/
theorem decode_fine (m : Metaspace) (r : Char) (hrep : m.rep = [r]) (ts : List Str) (c : Char) (q : Str) (rest : List Str)
    (h : ts = (c :: q) :: rest) (hq : r ∉ q) :
    m.decode ts = if m.addPrefix ∧ ts.flatten.head? = some r then unmeta r ts.flatten.tail else unmeta r ts.flatten := by
  subst h
  unfold Metaspace.decode Metaspace.decodeChain
  by_cases ha : m.addPrefix = true
  · rw [List.zipIdx_cons, List.map_cons, List.flatten_cons, decodeChain_later m r hrep rest (0 + 1) (by omega)]
    have hq0 : ∀ q : Str, r ∉ q → m.decodeToken 0 q = unmeta r q := by
      intro q hq
      unfold Metaspace.decodeToken unmeta
      induction q with
      | nil => rfl
      | cons d q ih =>
        have hd : ¬ d = r := fun h => hq (by simp [h])
        rw [List.flatMap_cons, ih (fun h => hq (List.mem_cons_of_mem _ h)), List.map_cons, hrep]
        simp [hd]
    have hcq : m.decodeToken 0 (c :: q) = (if c = r then [] else [c]) ++ unmeta r q := by
      rw [← hq0 q hq]
      unfold Metaspace.decodeToken
      rw [List.flatMap_cons, hrep]
      congr 1
      by_cases h : c = r
      · simp [h, ha]
      · simp [h]
    rw [hcq]
    by_cases h : c = r
    · rw [if_pos h, if_pos ⟨ha, by simp [h]⟩]; simp [unmeta]
    · rw [if_neg h, if_neg (by simp [h])]
      simp [unmeta, h]
  · rw [if_neg (fun h => ha h.1), decodeChain_later m r hrep _ 0 (fun _ => by simpa using ha)]

/-- What comes back of a text without the replacement character. -/
theorem unmeta_metaText (r : Char) (a : Bool) (s : Str) (hr : r ∉ s) :
    (if a ∧ (metaText r a s).head? = some r then unmeta r (metaText r a s).tail else unmeta r (metaText r a s)) =
      if a ∧ s.head?.any isSpace then spaced s.tail else spaced s := by
  unfold metaText
  simp only
  cases a with
  | false => simp [unmeta_meta r s hr]
  | true =>
    cases s with
    | nil => simp [unmeta, spaced]
    | cons c s =>
      have hc : ¬ c = r := fun h => hr (by simp [h])
      have hrs : r ∉ s := fun h => hr (List.mem_cons_of_mem _ h)
      by_cases h : isSpace c = true
      · simp [h, unmeta_meta r s hrs]
      · have := unmeta_meta r (c :: s) hr
        simp only [List.map_cons, if_neg h] at this
        simp [h, hc, this]

end Tok.PreTok
