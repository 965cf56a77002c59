import Verif.Norm.Replace
import Verif.Norm.Class
import Verif.Norm.PropsSplit

/-! C61: Replace. -/

namespace Tok.Norm

/-- The text with the matches replaced. -/
def replacedText (content : Str) (ps : List (Str × Bool)) : Str :=
  ps.flatMap (fun p => if p.2 then content else p.1)

/-- The place of the original for every byte of the new text: its own character for text that is
kept, the last character of the match for the replacement. The pieces begin at byte `i`. -/
def replacedAligns (content : Str) : Nat → List (Str × Bool) → List (Int × Int)
  | _, [] => []
  | i, (t, isMatch) :: ps =>
    (if isMatch then List.replicate (blen content) (((i + blen t.dropLast : Nat) : Int), ((i + blen t : Nat) : Int))
      else byteRanges t i) ++ replacedAligns content (i + blen t) ps

/-- The matches are at places of the text before the replacements, which begins with `k` bytes that are done. -/
theorem replaceLoop_from (content : Str) (ps : List (Str × Bool)) (hne : ∀ p ∈ ps, p.1 ≠ []) :
    ∀ {sh : Int} {u u' : Str} {A : List (Int × Int)} {n : NStr} {off : Int} {k : Nat}, RInv sh u u' (ps.map (·.1)).flatten A n →
      off = (blen u' : Int) - k →
      ∃ n', replaceLoop content (spansAt k ps) off n = .ok n' ∧
        RInv sh (u ++ (ps.map (·.1)).flatten) (u' ++ replacedText content ps) [] (A ++ replacedAligns content (blen u) ps) n' := by
  induction ps with
  | nil =>
    intro sh u u' A n off k h _
    refine ⟨n, rfl, ?_⟩
    simpa [replacedText, replacedAligns] using h
  | cons p ps ih =>
    obtain ⟨t, f⟩ := p
    replace ih := @ih (fun q hq => hne q (List.mem_cons_of_mem _ hq))
    have ht := hne (t, f) List.mem_cons_self
    intro sh u u' A n off k h hoff
    rw [List.map_cons, List.flatten_cons] at h ⊢
    rw [spansAt, replaceLoop, replacedAligns]
    cases f with
    | false =>
      obtain ⟨n', h1, h2⟩ := ih (u := u ++ t) (u' := u' ++ t) (off := off) (k := k + blen t) h.skip (by rw [blen_append]; omega)
      rw [blen_append] at h2
      refine ⟨n', h1, ?_⟩
      have e : replacedText content ((t, false) :: ps) = t ++ replacedText content ps := by simp [replacedText]
      rw [e]
      simpa using h2
    | true =>
      obtain ⟨b, c, hbc⟩ : ∃ b c, t = b ++ [c] := by
        rcases List.eq_nil_or_concat t with h | ⟨b, c, h⟩
        · exact absurd h ht
        · exact ⟨b, c, by simp [h]⟩
      obtain ⟨n1, r1, r2⟩ := h.replace hbc content
      have hr0 : applySign ((k : Nat) : Int) off = ((blen u' : Nat) : Int) := by
        unfold applySign; rw [if_neg (by omega)]; omega
      have hr1 : applySign ((k + blen t : Nat) : Int) off = ((blen u' + blen t : Nat) : Int) := by
        unfold applySign; rw [if_neg (by omega)]; omega
      have hgone : slc n.normalized ((blen u' : Nat) : Int) ((blen u' + blen t : Nat) : Int) = .ok (encStr t) := by
        rw [slc_ok (by omega) (by omega) (by rw [h.normalized, length_encStr, blen_append, blen_append]; dsimp only; omega),
          Int.toNat_natCast, Int.toNat_natCast, h.normalized, ← List.append_assoc, encStr_append, encStr_append,
          List.take_left' (by rw [List.length_append, length_encStr, length_encStr]), List.drop_left' (length_encStr _)]
      obtain ⟨n', h1, h2⟩ := ih (u := u ++ t) (u' := u' ++ content)
        (off := off + (blen content : Int) - (((k + blen t : Nat) : Int) - (k : Nat))) (k := k + blen t) r2
        (by rw [blen_append]; omega)
      rw [blen_append] at h2
      refine ⟨n', ?_, ?_⟩
      · simp only [if_true]
        rw [hr0, hr1, hgone]
        simp only [Res.bind_ok, runes_encStr]
        rw [r1]
        simp only [Res.bind_ok]
        exact h1
      · have e : replacedText content ((t, true) :: ps) = content ++ replacedText content ps := by simp [replacedText]
        have e2 : t.dropLast = b := by rw [hbc]; simp
        rw [e, e2]
        simpa using h2

theorem replaceLoop_exact (content : Str) (ps : List (Str × Bool)) (hne : ∀ p ∈ ps, p.1 ≠ []) {sh : Int} {u u' : Str}
    {A : List (Int × Int)} {n : NStr} {off : Int} (h : RInv sh u u' (ps.map (·.1)).flatten A n)
    (hoff : off = (blen u' : Int) - blen u) :
    ∃ n', replaceLoop content (spansAt (blen u) ps) off n = .ok n' ∧
      RInv sh (u ++ (ps.map (·.1)).flatten) (u' ++ replacedText content ps) [] (A ++ replacedAligns content (blen u) ps) n' :=
  replaceLoop_from content ps hne h hoff

theorem replacedAligns_mem {content : Str} {ps : List (Str × Bool)} {i : Nat} {p : Int × Int}
    (h : p ∈ replacedAligns content i ps) :
    (i : Int) ≤ p.1 ∧ p.1 ≤ p.2 ∧ p.2 ≤ ((i + blen (ps.map (·.1)).flatten : Nat) : Int) := by
  induction ps generalizing i with
  | nil => cases h
  | cons q ps ih =>
    obtain ⟨t, f⟩ := q
    rw [replacedAligns] at h
    rw [List.map_cons, List.flatten_cons, blen_append]
    have hdl : blen t.dropLast ≤ blen t := by
      rcases List.eq_nil_or_concat t with h | ⟨b, c, h⟩
      · rw [h]; exact Nat.le_refl _
      · rw [h]; simp
    rcases List.mem_append.mp h with h | h
    · cases f with
      | false => have := byteRanges_mem h; dsimp only; omega
      | true => simp only [if_true] at h; rw [(List.mem_replicate.mp h).2]; dsimp only; omega
    · have := ih h
      dsimp only at this ⊢
      omega

theorem replacedAligns_nd (content : Str) (ps : List (Str × Bool)) (i : Nat) :
    NonDecreasing (replacedAligns content i ps) := by
  induction ps generalizing i with
  | nil => exact List.Pairwise.nil
  | cons q ps ih =>
    obtain ⟨t, f⟩ := q
    have hdl : blen t.dropLast ≤ blen t := by
      rcases List.eq_nil_or_concat t with h | ⟨b, c, h⟩
      · rw [h]; exact Nat.le_refl _
      · rw [h]; simp
    rw [replacedAligns]
    refine List.pairwise_append.mpr ⟨?_, ih _, ?_⟩
    · cases f with
      | false => exact byteRanges_nd t i
      | true => exact List.pairwise_replicate.mpr (.inr ⟨Int.le_refl _, Int.le_refl _⟩)
    · intro p hp q hq
      have h2 := replacedAligns_mem hq
      cases f with
      | false => have := byteRanges_mem hp; omega
      | true => simp only [if_true] at hp; rw [(List.mem_replicate.mp hp).2]; dsimp only; omega

/-- C61. Replacing the matches of a pattern in a fresh string, whatever the matches (not empty, on
character boundaries) and the replacement: the call succeeds, the text is the text with each match
replaced, kept text is aligned with itself and each replacement with the last character of its
match. -/
theorem C61_replace (p : Pat) (content : Str) (ps : List (Str × Bool)) (hne : ∀ q ∈ ps, q.1 ≠ [])
    (hfind : p.find (encStr (ps.map (·.1)).flatten) = .ok (spansAt 0 ps)) :
    ∃ n', (newNStr (encStr (ps.map (·.1)).flatten)).replace p (encStr content) = .ok n' ∧
      n'.normalized = encStr (replacedText content ps) ∧
      n'.original = encStr (ps.map (·.1)).flatten ∧
      n'.aligns = replacedAligns content 0 ps ∧ n'.shift = 0 ∧ WF n' := by
  obtain ⟨n', h1, h2⟩ := replaceLoop_exact content ps hne (off := 0) (rinv_new (ps.map (·.1)).flatten) (by simp)
  have h3 : (newNStr (encStr (ps.map (·.1)).flatten)).replace p (encStr content) = .ok n' := by
    unfold NStr.replace
    have : (newNStr (encStr (ps.map (·.1)).flatten)).normalized = encStr (ps.map (·.1)).flatten := rfl
    rw [this, hfind, runes_encStr]
    exact h1
  have hn : n'.normalized = encStr (replacedText content ps) := by have := h2.normalized; simpa using this
  have ho : n'.original = encStr (ps.map (·.1)).flatten := by have := h2.original; simpa using this
  have ha : n'.aligns = replacedAligns content 0 ps := by have := h2.aligns; simpa [byteRanges] using this
  refine ⟨n', h3, hn, ho, ha, h2.shift, ?_, ?_, ?_, ?_⟩
  · have := h2.lenA
    rw [ha, hn, length_encStr]
    simpa using this
  · rw [h2.lenO, ho, length_encStr]; simp
  · intro q hq
    rw [ha] at hq
    have := replacedAligns_mem hq
    rw [ho, length_encStr]
    omega
  · rw [ha]; exact replacedAligns_nd content ps 0

/-- C61 for character classes, on any text: each character of the class becomes the replacement,
aligned with that character. -/
theorem C61_class (f : Char → Bool) (s content : Str) :
    ∃ n', (newNStr (encStr s)).replace (.regexp (classEngine f)) (encStr content) = .ok n' ∧
      n'.normalized = encStr (s.flatMap (fun c => if f c then content else [c])) ∧
      n'.original = encStr s ∧ n'.shift = 0 ∧ WF n' ∧
      n'.aligns = (s.zipIdx.flatMap (fun p => List.replicate (if f p.1 then blen content else p.1.utf8Size)
        ((blen (s.take p.2) : Int), (blen (s.take (p.2 + 1)) : Int)))) := by
  by_cases hs : s = []
  · subst hs
    exact ⟨newNStr (encStr []), by rfl, rfl, rfl, rfl, newNStr_wf [], by rw [newNStr_aligns]; rfl⟩
  obtain ⟨ps, hcut⟩ := fnCut_exists f s
  have hflat := fnCut_flatten hcut
  obtain ⟨n', h1, h2, h3, h4, h5, h6⟩ := C61_replace (.regexp (classEngine f)) content ps (fnCut_ne hcut)
    (by rw [hflat]; exact reFind_class f s hs hcut)
  rw [hflat] at h1 h3
  refine ⟨n', h1, ?_, h3, h5, h6, ?_⟩
  · rw [h2]
    congr 1
    unfold replacedText
    clear h1 h2 h3 h4 h5 h6 hflat hs
    induction hcut with
    | nil => rfl
    | hit c s ps hc _ ih => simp [hc, ih]
    | run r s ps _ hr _ _ ih =>
      rw [List.flatMap_cons, ih, List.flatMap_append]
      congr 1
      simp only [Bool.false_eq_true, if_false]
      have run : ∀ r : Str, (∀ c ∈ r, f c = false) → r = r.flatMap (fun c => if f c then content else [c]) := by
        intro r hr
        induction r with
        | nil => rfl
        | cons d r ih =>
          rw [List.flatMap_cons, hr d List.mem_cons_self, ← ih (fun x hx => hr x (List.mem_cons_of_mem _ hx))]; rfl
      exact run r hr
  · rw [h4]
    clear h1 h2 h3 h4 h5 h6 hflat hs
    have key : ∀ (t : Str) (ps : List (Str × Bool)), FnCut f t ps → ∀ (pre : Str), 
        replacedAligns content (blen pre) ps =
          (t.zipIdx pre.length).flatMap (fun p => List.replicate (if f p.1 then blen content else p.1.utf8Size)
            ((blen ((pre ++ t).take p.2) : Int), (blen ((pre ++ t).take (p.2 + 1)) : Int))) := by
      intro t ps h
      induction h with
      | nil => intro pre; rfl
      | hit c t ps hc _ ih =>
        intro pre
        have := ih (pre ++ [c])
        rw [blen_append, List.append_assoc, List.length_append] at this
        rw [replacedAligns, List.zipIdx_cons, List.flatMap_cons, this]
        congr 1
        simp only [if_true, hc]
        congr 2
        · simp
        · rw [List.take_append, List.take_of_length_le (by omega), blen_append]
          simp
      | run r t ps _ hr _ _ ih =>
        intro pre
        have := ih (pre ++ r)
        rw [blen_append, List.append_assoc, List.length_append] at this
        rw [replacedAligns, this, List.zipIdx_append, List.flatMap_append]
        congr 1
        simp only [Bool.false_eq_true, if_false]
        clear ih this
        -- the kept run
        have run : ∀ (r pre post : Str), (∀ c ∈ r, f c = false) → byteRanges r (blen pre) =
            (r.zipIdx pre.length).flatMap (fun p => List.replicate (if f p.1 then blen content else p.1.utf8Size)
              ((blen ((pre ++ (r ++ post)).take p.2) : Int), (blen ((pre ++ (r ++ post)).take (p.2 + 1)) : Int))) := by
          intro r
          induction r with
          | nil => intro _ _ _; rfl
          | cons c r ih =>
            intro pre post hr
            have := ih (pre ++ [c]) post (fun x hx => hr x (List.mem_cons_of_mem _ hx))
            rw [blen_append, List.append_assoc, List.length_append] at this
            rw [byteRanges, List.zipIdx_cons, List.flatMap_cons]
            congr 1
            · simp only [hr c List.mem_cons_self, Bool.false_eq_true, if_false]
              congr 2
              · simp
              · rw [List.take_append, List.take_of_length_le (by omega), blen_append]
                simp
        exact run r pre t hr
    exact key s ps hcut []

/-- "a b" with the space replaced by two characters. -/
example : ∃ n', (newNStr (encStr "a b".toList)).replace (.regexp (classEngine (· == ' '))) (encStr "é_".toList) = .ok n' ∧
    n'.normalized = encStr "aé_b".toList ∧ n'.aligns = [(0, 1), (1, 2), (1, 2), (1, 2), (2, 3)] := by
  have : okAnd ((newNStr (encStr "a b".toList)).replace (.regexp (classEngine (· == ' '))) (encStr "é_".toList))
      (fun n' => n'.normalized == encStr "aé_b".toList && n'.aligns == [(0, 1), (1, 2), (1, 2), (1, 2), (2, 3)]) = true := by
    decide +kernel
  obtain ⟨n', h1, h2⟩ := okAnd_spec this
  exact ⟨n', h1, by simpa using h2⟩

end Tok.Norm
