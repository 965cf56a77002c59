import Verif.PreTok.Prefix
import Verif.PreTok.PropsOriginReplace

/-!
# A prefix, and then replacements
-/

namespace Tok.PreTok

open Tok.Norm

theorem sep_of_values {f : Nat → Int × Int} (s : Str) : ∀ (i : Nat) (l : List Nat), l.map f = byteRanges s i → Sep s l := by
  induction s with
  | nil =>
    intro i l h
    exact List.map_eq_nil_iff.mp h
  | cons c s ih =>
    intro i l h
    have hp := c.utf8Size_pos
    rw [byteRanges] at h
    obtain ⟨h1, h2, rfl, e1, e2⟩ := List.map_eq_append_iff.mp h
    refine ⟨h1, h2, rfl, ?_, ?_, ih _ _ e2⟩
    · have := congrArg List.length e1
      simpa using this
    · intro x hx hx'
      have m1 : f x ∈ h1.map f := List.mem_map_of_mem hx
      have m2 : f x ∈ h2.map f := List.mem_map_of_mem hx'
      rw [e1] at m1
      rw [e2] at m2
      have a1 := (List.mem_replicate.mp m1).2
      have a2 := (byteRanges_mem m2).1
      rw [a1] at a2
      dsimp only at a2
      omega

/-- The replacements in the rest of a text, of which `u` has become `u'`. -/
theorem replaceLoop_wf (content : Str) (ps : List (Str × Bool)) (hne : ∀ p ∈ ps, p.1 ≠ []) {sh : Int} {u u' : Str}
    {A : List (Int × Int)} {n : NStr} {off : Int} {k : Nat} (h : RInv sh u u' (ps.map (·.1)).flatten A n)
    (hA : ∀ p ∈ A, 0 ≤ p.1 ∧ p.1 ≤ p.2 ∧ p.2 ≤ (blen u : Int)) (hnd : NonDecreasing A) (hoff : off = (blen u' : Int) - k) :
    ∃ n', replaceLoop content (spansAt k ps) off n = .ok n' ∧ n'.normalized = encStr (u' ++ replacedText content ps) ∧ WF n' ∧
      n'.aligns = A ++ replacedAligns content (blen u) ps ∧ n'.shift = sh := by
  obtain ⟨n', h1, h2⟩ := replaceLoop_from content ps hne h hoff
  have hn : n'.normalized = encStr (u' ++ replacedText content ps) := by have := h2.normalized; simpa using this
  have ho : n'.original = encStr (u ++ (ps.map (·.1)).flatten) := by have := h2.original; simpa using this
  have ha : n'.aligns = A ++ replacedAligns content (blen u) ps := by have := h2.aligns; simpa [byteRanges] using this
  refine ⟨n', h1, hn, ⟨?_, ?_, ?_, ?_⟩, ha, h2.shift⟩
  · rw [ha, h2.lenA, hn, length_encStr]
  · rw [h2.lenO, ho, length_encStr]; simp
  · intro q hq
    rw [ha] at hq
    rw [ho, length_encStr, blen_append]
    rcases List.mem_append.mp hq with hq | hq
    · have := hA q hq
      omega
    · have := replacedAligns_mem hq
      omega
  · rw [ha]
    refine List.pairwise_append.mpr ⟨hnd, replacedAligns_nd content ps _, ?_⟩
    intro p hp q hq
    have := hA p hp
    have := replacedAligns_mem hq
    omega

/-- A prefix of one character, and then replacements after it. -/
theorem prepend_replace {x : NStr} {c : Char} {t : Str} (h : Fresh x (c :: t)) (hc : c ≠ '\x00') (r : Char) (p : Pat)
    (content : Str) (q : Str) (ps : List (Str × Bool)) (hm : q ++ (ps.map (·.1)).flatten = c :: t) (hne : ∀ u ∈ ps, u.1 ≠ [])
    (hfind : p.find (encStr (r :: c :: t)) = .ok (spansAt 0 ((r :: q, false) :: ps))) :
    ∃ y z, x.prepend (encStr [r]) = .ok y ∧ y.replace p (encStr content) = .ok z ∧
      z.normalized = encStr (r :: q ++ replacedText content ps) ∧ WF z ∧
      z.aligns = List.replicate r.utf8Size ((0 : Int), (c.utf8Size : Int)) ++ replacedAligns content 0 ((q, false) :: ps) ∧
      z.shift = x.shift := by
  obtain ⟨y, h1, h2, h3⟩ := prepend_fresh h hc r
  have htext : y.normalized = encStr (r :: c :: t) := by rw [h2.text, rights_cons, rights_singles]; rfl
  have horig : y.original = encStr (c :: t) := by rw [h2.original, lefts_cons, lefts_singles]; rfl
  have hal : y.aligns = List.replicate (r.utf8Size + c.utf8Size) ((0 : Int), (c.utf8Size : Int)) ++ byteRanges t c.utf8Size := by
    rw [h2.aligns, alignsOf, ← byteRanges_blocks]
    simp [blen_cons]
  have hO : y.refs.map (cellAt y.cells) =
      List.replicate c.utf8Size ((0 : Int), ((r.utf8Size + c.utf8Size : Nat) : Int)) ++ byteRanges t (r.utf8Size + c.utf8Size) := by
    have := h2.alignsO
    unfold NStr.alignsO at this
    rw [this, List.map_cons, alignsOf, swap_singles, ← byteRanges_blocks]
    simp [blen_cons]
  have hp := c.utf8Size_pos
  have hpr := r.utf8Size_pos
  have hlen : y.refs.length = c.utf8Size + blen t := by
    have := congrArg List.length hO
    rw [List.length_map, List.length_append, List.length_replicate, length_byteRanges] at this
    exact this
  have htl : (y.refs.drop c.utf8Size).map (cellAt y.cells) = byteRanges t (r.utf8Size + c.utf8Size) := by
    rw [List.map_drop, hO, List.drop_left' (by simp)]
  have hhd : (y.refs.take c.utf8Size).map (cellAt y.cells) =
      List.replicate c.utf8Size ((0 : Int), ((r.utf8Size + c.utf8Size : Nat) : Int)) := by
    rw [List.map_take, hO, List.take_left' (by simp)]
  have hsep := sep_of_values t _ _ htl
  have hA : ∀ n : Nat, ∀ p ∈ List.replicate n ((0 : Int), (c.utf8Size : Int)), 0 ≤ p.1 ∧ p.1 ≤ p.2 ∧ p.2 ≤ (c.utf8Size : Int) := by
    intro n p hp
    rw [(List.mem_replicate.mp hp).2]
    dsimp only
    omega
  -- after the first character of the text
  have hrest : RInv y.shift [c] [r, c] t (List.replicate (r.utf8Size + c.utf8Size) ((0 : Int), (c.utf8Size : Int))) y := by
    refine ⟨horig, htext, by rw [hal]; simp, by simp [blen_cons], by simp [hlen], ?_, ?_, rfl⟩
    · simpa using htl
    · simpa using hsep
  have hdone : ∀ (q' : Str) (ps' : List (Str × Bool)), (∀ u ∈ ps', u.1 ≠ []) → t = q' ++ (ps'.map (·.1)).flatten →
      ∃ z, replaceLoop content (spansAt (blen (r :: c :: q')) ps') 0 y = .ok z ∧
        z.normalized = encStr (r :: c :: q' ++ replacedText content ps') ∧ WF z ∧
        z.aligns = List.replicate r.utf8Size ((0 : Int), (c.utf8Size : Int)) ++ replacedAligns content 0 ((c :: q', false) :: ps') ∧
        z.shift = y.shift := by
    intro q' ps' hne' ht
    have hr := hrest
    rw [ht] at hr
    obtain ⟨z, z1, z2, z3, z4, z5⟩ := replaceLoop_wf content ps' hne' hr.skip (k := blen (r :: c :: q')) (off := 0)
      (by
        intro p hp
        rw [blen_append]
        rcases List.mem_append.mp hp with hp | hp
        · have := hA _ p hp
          simp only [blen_cons, blen_nil]
          omega
        · have := byteRanges_mem hp
          omega)
      (by
        refine List.pairwise_append.mpr ⟨List.pairwise_replicate.mpr (.inr ⟨Int.le_refl _, Int.le_refl _⟩), byteRanges_nd _ _, ?_⟩
        intro a ha b hb
        have := byteRanges_mem hb
        have := hA _ a ha
        simp only [blen_cons, blen_nil] at *
        omega)
      (by simp [blen_cons])
    refine ⟨z, z1, z2, z3, ?_, z5⟩
    rw [z4, replacedAligns, if_neg (by simp), byteRanges]
    simp only [blen_cons, blen_nil, blen_append, List.append_assoc, Nat.add_zero, Nat.zero_add, Int.natCast_zero, Int.zero_add]
    rw [← List.append_assoc (List.replicate _ _) (List.replicate _ _), List.replicate_append_replicate]
  have hloop : ∃ z, replaceLoop content (spansAt (blen (r :: q)) ps) 0 y = .ok z ∧
      z.normalized = encStr (r :: q ++ replacedText content ps) ∧ WF z ∧
      z.aligns = List.replicate r.utf8Size ((0 : Int), (c.utf8Size : Int)) ++ replacedAligns content 0 ((q, false) :: ps) ∧
      z.shift = y.shift := by
    cases q with
    | cons c' q' =>
      simp only [List.cons_append, List.cons.injEq] at hm
      obtain ⟨rfl, hm⟩ := hm
      exact hdone q' ps hne hm.symm
    | nil =>
      cases ps with
      | nil => cases hm
      | cons m ps =>
        obtain ⟨m, f⟩ := m
        have hmne := hne (m, f) (by simp)
        have hne' : ∀ u ∈ ps, u.1 ≠ [] := fun u hu => hne u (by simp [hu])
        cases m with
        | nil => exact absurd rfl hmne
        | cons c' m' =>
          simp only [List.nil_append, List.map_cons, List.flatten_cons, List.cons_append, List.cons.injEq] at hm
          obtain ⟨rfl, hm⟩ := hm
          cases f with
          | false =>
            obtain ⟨z, e1, e2, e3, e4, e5⟩ := hdone m' ps hne' hm.symm
            refine ⟨z, ?_, ?_, e3, ?_, e5⟩
            · rw [spansAt, replaceLoop]
              have : blen [r] + blen (c' :: m') = blen (r :: c' :: m') := by simp [blen_cons]
              rw [this]
              exact e1
            · rw [e2]; simp [replacedText]
            · rw [e4]; simp [replacedAligns, byteRanges]
          | true =>
            have hval : y.refs.map (cellAt y.cells) =
                (List.replicate c'.utf8Size ((0 : Int), ((r.utf8Size + c'.utf8Size : Nat) : Int)) ++
                  byteRanges m' (r.utf8Size + c'.utf8Size)) ++ byteRanges (ps.map (·.1)).flatten (r.utf8Size + c'.utf8Size + blen m') := by
              rw [hO, ← hm, byteRanges_append, List.append_assoc]
            have hv1 : (y.refs.take (c'.utf8Size + blen m')).map (cellAt y.cells) =
                List.replicate c'.utf8Size ((0 : Int), ((r.utf8Size + c'.utf8Size : Nat) : Int)) ++
                  byteRanges m' (r.utf8Size + c'.utf8Size) := by
              rw [List.map_take, hval, List.take_left' (by simp [length_byteRanges])]
            have hv2 : (y.refs.drop (c'.utf8Size + blen m')).map (cellAt y.cells) =
                byteRanges (ps.map (·.1)).flatten (r.utf8Size + c'.utf8Size + blen m') := by
              rw [List.map_drop, hval, List.drop_left' (by simp [length_byteRanges])]
            have hwithin : ∀ z ∈ y.refs.take (c'.utf8Size + blen m'),
                (cellAt y.cells z).2 ≤ ((r.utf8Size + c'.utf8Size + blen m' : Nat) : Int) := by
              intro z hz
              have hz : cellAt y.cells z ∈ (y.refs.take (c'.utf8Size + blen m')).map (cellAt y.cells) := List.mem_map_of_mem hz
              rw [hv1] at hz
              rcases List.mem_append.mp hz with hz | hz
              · rw [(List.mem_replicate.mp hz).2]
                dsimp only
                omega
              · exact (byteRanges_mem hz).2.2.1
            have hmatch : RMatch y.shift [] [r] (c' :: m') (ps.map (·.1)).flatten
                (List.replicate r.utf8Size ((0 : Int), (c'.utf8Size : Int))) y := by
              refine ⟨?_, ?_, ?_, by simp [blen_cons], ?_, ?_, ?_, ?_, ?_, rfl⟩
              · rw [horig, ← hm]; rfl
              · rw [htext, ← hm]; rfl
              · rw [hal, ← List.replicate_append_replicate, List.cons_append, hm, byteRanges, List.append_assoc]
                simp
              · rw [hlen, List.cons_append, hm]; simp [blen_cons]
              · intro z hz
                simp only [blen_nil, List.drop_zero, blen_cons] at hz
                have := hwithin z hz
                simp only [blen_cons, blen_nil]
                omega
              · simp only [blen_nil, blen_cons, Nat.zero_add, Nat.add_zero]
                rw [hv2, Nat.add_assoc]
              · intro z hz hz'
                simp only [blen_nil, List.drop_zero, blen_cons] at hz hz'
                have h1 := hwithin z hz
                have h2 : cellAt y.cells z ∈ (y.refs.drop (c'.utf8Size + blen m')).map (cellAt y.cells) := List.mem_map_of_mem hz'
                rw [hv2] at h2
                have := (byteRanges_mem h2).2.2.2
                omega
              · simp only [blen_nil, List.drop_zero, blen_cons]
                exact sep_of_values _ _ _ hv2
            obtain ⟨b, d, hbd⟩ : ∃ b d, c' :: m' = b ++ [d] := by
              rcases List.eq_nil_or_concat (c' :: m') with h | ⟨b, d, h⟩
              · cases h
              · exact ⟨b, d, by simp [h]⟩
            obtain ⟨n1, r1, r2⟩ := hmatch.replace hbd content
            have hbl : blen b ≤ blen (c' :: m') := by rw [hbd, blen_append]; omega
            have hcb : blen b = 0 ∨ c'.utf8Size ≤ blen b := by
              cases b with
              | nil => exact .inl rfl
              | cons e b =>
                simp only [List.cons_append, List.cons.injEq] at hbd
                obtain ⟨rfl, _⟩ := hbd
                exact .inr (by rw [blen_cons]; omega)
            have hcm : c'.utf8Size ≤ blen (c' :: m') := by rw [blen_cons]; omega
            obtain ⟨z, e1, e2, e3, e4, e5⟩ := replaceLoop_wf content ps hne' r2 (k := blen [r] + blen (c' :: m'))
              (off := 0 + (blen content : Int) - (((blen [r] + blen (c' :: m') : Nat) : Int) - (blen [r] : Nat)))
              (by
                intro p hp
                simp only [List.nil_append, blen_nil, Nat.zero_add] at hp ⊢
                rcases List.mem_append.mp hp with hp | hp
                · have := hA _ p hp
                  omega
                · rw [(List.mem_replicate.mp hp).2]
                  dsimp only
                  omega)
              (by
                refine List.pairwise_append.mpr ⟨List.pairwise_replicate.mpr (.inr ⟨Int.le_refl _, Int.le_refl _⟩),
                  List.pairwise_replicate.mpr (.inr ⟨Int.le_refl _, Int.le_refl _⟩), ?_⟩
                intro a ha b' hb'
                rw [(List.mem_replicate.mp ha).2, (List.mem_replicate.mp hb').2]
                simp only [blen_nil, Nat.zero_add]
                omega)
              (by rw [blen_append]; omega)
            refine ⟨z, ?_, ?_, e3, ?_, e5⟩
            · rw [spansAt, replaceLoop]
              have hr0 : applySign ((blen [r] : Nat) : Int) 0 = ((blen [r] : Nat) : Int) := by
                unfold applySign; rw [if_neg (by omega)]; omega
              have hr1 : applySign ((blen [r] + blen (c' :: m') : Nat) : Int) 0 = ((blen [r] + blen (c' :: m') : Nat) : Int) := by
                unfold applySign; rw [if_neg (by omega)]; omega
              have hgone : slc y.normalized ((blen [r] : Nat) : Int) ((blen [r] + blen (c' :: m') : Nat) : Int) =
                  .ok (encStr (c' :: m')) := by
                rw [slc_ok (by omega) (by omega) (by rw [hmatch.normalized, length_encStr, blen_append, blen_append]; omega),
                  Int.toNat_natCast, Int.toNat_natCast, hmatch.normalized, ← List.append_assoc, encStr_append, encStr_append,
                  List.take_left' (by rw [List.length_append, length_encStr, length_encStr]), List.drop_left' (length_encStr _)]
              simp only [if_true]
              rw [hr0, hr1, hgone]
              simp only [Res.bind_ok, runes_encStr]
              rw [r1]
              simp only [Res.bind_ok]
              exact e1
            · rw [e2]; simp [replacedText]
            · have hdl : (c' :: m').dropLast = b := by rw [hbd]; simp
              rw [e4]
              simp only [replacedAligns, hdl, byteRanges, if_true, Bool.false_eq_true, if_false, blen_nil, Nat.zero_add,
                List.nil_append, List.append_assoc]
  obtain ⟨z, e1, e2, e3, e4, e5⟩ := hloop
  refine ⟨y, z, h1, ?_, e2, e3, e4, by rw [e5, h3]⟩
  unfold NStr.replace
  rw [htext, hfind, runes_encStr]
  simp only [Res.bind_ok, spansAt, replaceLoop, Nat.zero_add]
  exact e1

end Tok.PreTok
