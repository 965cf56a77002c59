import Verif.Norm.Items
import Verif.Norm.Slice

/-! `Replace` on fresh strings: exact text and alignments. -/

namespace Tok.Norm

/-- Different characters have different inner slices. -/
def Sep : Str → List Nat → Prop
  | [], l => l = []
  | c :: s, l => ∃ h t, l = h ++ t ∧ h.length = c.utf8Size ∧ (∀ x ∈ h, x ∉ t) ∧ Sep s t

theorem sep_alignRefs (s : Str) : ∀ k, Sep s (alignRefs s k) ∧ ∀ x ∈ alignRefs s k, k ≤ x := by
  induction s with
  | nil => intro k; exact ⟨rfl, by simp [alignRefs]⟩
  | cons c s ih =>
    intro k
    obtain ⟨h1, h2⟩ := ih (k + 1)
    refine ⟨⟨List.replicate c.utf8Size k, alignRefs s (k + 1), rfl, by simp, ?_, h1⟩, ?_⟩
    · intro x hx hm
      have := (List.mem_replicate.mp hx).2
      have := h2 x hm
      omega
    · intro x hx
      rw [alignRefs] at hx
      rcases List.mem_append.mp hx with hx | hx
      · rw [(List.mem_replicate.mp hx).2]; omega
      · have := h2 x hx; omega

theorem sep_nodup (s : Str) : ∀ (l : List Nat), l.length = blen s → l.Nodup → Sep s l := by
  induction s with
  | nil => intro l hl _; exact List.length_eq_zero_iff.mp (by simpa using hl)
  | cons c s ih =>
    intro l hl hn
    rw [blen_cons] at hl
    refine ⟨l.take c.utf8Size, l.drop c.utf8Size, (List.take_append_drop _ _).symm, by rw [List.length_take]; omega, ?_, ?_⟩
    · intro x h1 h2
      have := hn
      rw [← List.take_append_drop c.utf8Size l, List.nodup_append] at this
      exact this.2.2 x h1 x h2 rfl
    · exact ih _ (by rw [List.length_drop]; omega) (hn.sublist (List.drop_sublist _ _))

theorem sep_length {s : Str} : ∀ {l : List Nat}, Sep s l → l.length = blen s := by
  induction s with
  | nil => intro l h; rw [h]; rfl
  | cons c s ih =>
    rintro l ⟨h, t, rfl, h1, _, h2⟩
    rw [List.length_append, h1, ih h2, blen_cons]

theorem sep_append {s t : Str} : ∀ {l : List Nat}, Sep (s ++ t) l →
    (∀ x ∈ l.take (blen s), x ∉ l.drop (blen s)) ∧ Sep t (l.drop (blen s)) := by
  induction s with
  | nil => intro l h; exact ⟨by simp, by simpa using h⟩
  | cons c s ih =>
    rintro l ⟨h, u, rfl, h1, h2, h3⟩
    obtain ⟨i1, i2⟩ := ih h3
    rw [blen_cons, ← h1]
    have e1 : (h ++ u).take (h.length + blen s) = h ++ u.take (blen s) := by
      rw [List.take_append, List.take_of_length_le (by omega)]; congr 2; omega
    have e2 : (h ++ u).drop (h.length + blen s) = u.drop (blen s) := by
      rw [List.drop_append, List.drop_of_length_le (by omega), List.nil_append]; congr 1; omega
    rw [e1, e2]
    refine ⟨?_, i2⟩
    intro x hx
    rcases List.mem_append.mp hx with hx | hx
    · exact fun hm => h2 x hx (List.mem_of_mem_drop hm)
    · exact i1 x hx

theorem cellAt_set_ne {cells : List (Int × Int)} {r x : Nat} (v : Int × Int) (h : r ≠ x) :
    cellAt (cells.set r v) x = cellAt cells x := by
  unfold cellAt
  rw [List.getElem?_set_ne h]

theorem cellAt_set_snd {cells : List (Int × Int)} {r x : Nat} {v : Int × Int} {M : Int} (hv : v.2 ≤ M)
    (hx : (cellAt cells x).2 ≤ M) : (cellAt (cells.set r v) x).2 ≤ M := by
  by_cases h : r = x
  · subst h
    unfold cellAt at *
    by_cases hl : r < cells.length
    · rw [List.getElem?_set_self hl]; exact hv
    · rw [List.getElem?_eq_none (by simp; omega)]
      rw [List.getElem?_eq_none (by omega)] at hx
      exact hx
  · rw [cellAt_set_ne v h]; exact hx

/-- Zeroing leaves the end alone when no slice ends after it, and touches no other slice. -/
theorem clearCells_exact (rs : List Nat) : ∀ {cells : List (Int × Int)} {ess oShift : Int}, 0 ≤ ess → 0 ≤ oShift →
    (∀ r ∈ rs, (cellAt cells r).2 ≤ ess) →
    (clearCells oShift rs cells ess).2 = ess ∧
    (clearCells oShift rs cells ess).1.length = cells.length ∧
    (∀ x ∉ rs, cellAt (clearCells oShift rs cells ess).1 x = cellAt cells x) ∧
    (∀ x, (cellAt cells x).2 ≤ ess → (cellAt (clearCells oShift rs cells ess).1 x).2 ≤ ess) := by
  induction rs with
  | nil => intro cells ess oShift _ _ _; exact ⟨rfl, rfl, fun _ _ => rfl, fun _ h => h⟩
  | cons r rs ih =>
    intro cells ess oShift h0 ho h
    have hr := h r List.mem_cons_self
    rw [clearCells]
    rw [if_neg (c := (cellAt cells r).2 > ess) (by omega)]
    have he : (applySign (cellAt cells r).2 (-oShift)) ≤ ess := by unfold applySign; split <;> omega
    obtain ⟨i1, i2, i3, i4⟩ := ih (cells := cells.set r (if (cellAt cells r).1 > applySign (cellAt cells r).2 (-oShift) then
      applySign (cellAt cells r).2 (-oShift) else (cellAt cells r).1, applySign (cellAt cells r).2 (-oShift))) h0 ho
      (fun x hx => cellAt_set_snd he (h x (List.mem_cons_of_mem _ hx)))
    refine ⟨i1, by rw [i2, List.length_set], ?_, ?_⟩
    · intro x hx
      rw [i3 x (fun hm => hx (List.mem_cons_of_mem _ hm)), cellAt_set_ne]
      rintro rfl
      exact hx List.mem_cons_self
    · intro x hx
      exact i4 x (cellAt_set_snd he hx)

/-- Zeroing of a run of characters that have their own alignments. `i` is the position of the run
in the original, `off` in the normalized text. -/
theorem clearChars_exact {al : List (Int × Int)} {refs : List Nat} (m : Str) :
    ∀ {i off : Nat} {oShift : Int} {cells : List (Int × Int)} {ess : Int},
    (al.drop off).take (blen m) = byteRanges m i → i + blen m ≤ refs.length → 0 ≤ oShift → 0 ≤ ess →
    (∀ r ∈ (refs.drop i).take (blen m), (cellAt cells r).2 ≤ ess) →
    ∃ cells', clearChars al refs m off oShift cells ess = .ok (cells', ess) ∧ cells'.length = cells.length ∧
      (∀ x ∉ (refs.drop i).take (blen m), cellAt cells' x = cellAt cells x) := by
  induction m with
  | nil => intro i off oShift cells ess _ _ _ _ _; exact ⟨cells, rfl, rfl, fun _ _ => rfl⟩
  | cons c m ih =>
    intro i off oShift cells ess hal hlen ho h0 hc
    have hpos := c.utf8Size_pos
    rw [blen_cons] at hal hlen hc
    have hoff : off + (c.utf8Size + blen m) ≤ al.length := by
      have := congrArg List.length hal
      rw [length_byteRanges, List.length_take, List.length_drop, blen_cons] at this
      omega
    rw [byteRanges] at hal
    have h1 : (al.take (off + c.utf8Size)).drop off = List.replicate c.utf8Size ((i : Int), (i + c.utf8Size : Int)) := by
      have := congrArg (List.take c.utf8Size) hal
      rw [List.take_take, Nat.min_eq_left (by omega), List.take_left' (by simp)] at this
      rw [List.drop_take, show off + c.utf8Size - off = c.utf8Size by omega]
      exact this
    have h2 : (al.drop (off + c.utf8Size)).take (blen m) = byteRanges m (i + c.utf8Size) := by
      have := congrArg (List.drop c.utf8Size) hal
      rw [List.drop_take, List.drop_drop, List.drop_left' (by simp)] at this
      rw [← this]
      congr 1
      omega
    rw [clearChars, slc_ok (by omega) (by omega) (by omega)]
    have e1 : ((off : Int) + (c.utf8Size : Int)).toNat = off + c.utf8Size := by omega
    rw [e1, Int.toNat_natCast]
    simp only [Res.bind_ok]
    rw [h1]
    obtain ⟨k, hk⟩ : ∃ k, c.utf8Size = k + 1 := ⟨c.utf8Size - 1, by omega⟩
    have hexp : expand (List.replicate c.utf8Size ((i : Int), (i + c.utf8Size : Int))) = some ((i : Int), (i + c.utf8Size : Int)) := by
      generalize ((i : Int), (i + c.utf8Size : Int)) = x
      rw [hk]
      unfold expand
      have hl : (List.replicate (k + 1) x).getLast? = some x := by rw [List.getLast?_replicate]; simp
      rw [hl]
      rfl
    rw [hexp]
    dsimp only
    rw [slc_ok (by omega) (by omega) (by omega)]
    simp only [Res.bind_ok]
    rw [show ((i : Int) + (c.utf8Size : Int)).toNat = i + c.utf8Size by omega, Int.toNat_natCast]
    have hrs : (refs.take (i + c.utf8Size)).drop i = (refs.drop i).take c.utf8Size := by
      rw [List.drop_take]; congr 1; omega
    rw [hrs]
    have hsub1 : ∀ x ∈ (refs.drop i).take c.utf8Size, x ∈ (refs.drop i).take (c.utf8Size + blen m) := by
      intro x hx
      rw [List.take_add]
      exact List.mem_append_left _ hx
    have hsub2 : ∀ x ∈ (refs.drop (i + c.utf8Size)).take (blen m), x ∈ (refs.drop i).take (c.utf8Size + blen m) := by
      intro x hx
      rw [List.take_add, List.drop_drop]
      exact List.mem_append_right _ hx
    obtain ⟨c1, c2, c3, c4⟩ := clearCells_exact ((refs.drop i).take c.utf8Size) (cells := cells) (ess := ess)
      (oShift := oShift + c.utf8Size) h0 (by omega) (fun r hr => hc r (hsub1 r hr))
    rw [c1]
    obtain ⟨cells', d1, d2, d3⟩ := ih (i := i + c.utf8Size) (off := off + c.utf8Size) (oShift := oShift + c.utf8Size)
      (cells := (clearCells (oShift + c.utf8Size) ((refs.drop i).take c.utf8Size) cells ess).1) (ess := ess)
      h2 (by omega) (by omega) h0 (fun r hr => c4 r (hc r (hsub2 r hr)))
    refine ⟨cells', d1, by rw [d2, c2], ?_⟩
    intro x hx
    rw [d3 x (fun hm => hx (hsub2 x hm)), c3 x (fun hm => hx (hsub1 x hm))]

/-- Inserting characters: the slices of the original after a position are not changed. -/
theorem changeLoop_insert {al : List (Int × Int)} {align : Int × Int} (content : Str) :
    ∀ {st : TState}, 0 < st.offset → al[st.offset - 1]? = some align → 0 ≤ align.1 → align.1 ≤ align.2 →
    align.2 ≤ st.refs.length →
    ∃ st', changeLoop al (content.map (fun c => ([c], (1 : Int)))) st = .ok st' ∧
      st'.als = st.als ++ List.replicate (blen content) align ∧ st'.out = st.out ++ content ∧
      st'.oShift = st.oShift + blen content ∧ st'.refs.length = st.refs.length ∧
      (∀ k : Nat, align.2 ≤ k → st'.refs.drop k = st.refs.drop k) ∧
      st.cells <+: st'.cells := by
  induction content with
  | nil => intro st _ _ _ _ _; exact ⟨st, rfl, by simp, by simp, by simp, rfl, fun _ _ => rfl, List.prefix_refl _⟩
  | cons c content ih =>
    intro st hi hal h1 h2 h3
    rw [List.map_cons, changeLoop]
    have hlt : st.offset - 1 < al.length := (List.getElem?_eq_some_iff.mp hal).1
    have hp : pickAlign al 1 st.offset = .ok align := by
      unfold pickAlign
      rw [if_pos (by omega), if_neg (by omega), show ((st.offset : Int) - 1) = ((st.offset - 1 : Nat) : Int) by omega,
        idx_ok hlt]
      rw [List.getElem?_eq_getElem hlt] at hal
      injection hal with hal
      rw [hal]
    have hstep : ∃ st', changeStep al ([c], 1) st = .ok st' ∧ st'.als = st.als ++ List.replicate c.utf8Size align ∧
        st'.out = st.out ++ [c] ∧ st'.oShift = st.oShift + c.utf8Size ∧ st'.offset = st.offset ∧
        st'.refs.length = st.refs.length ∧ (∀ k : Nat, align.2 ≤ k → st'.refs.drop k = st.refs.drop k) ∧
        st.cells <+: st'.cells := by
      unfold changeStep
      simp only [hp, Res.bind_ok, show ¬ ((1 : Int) ≤ 0) by omega, show ¬ ((1 : Int) < 0) by omega, if_false, removedSize,
        replacedSize]
      have hr : removing al st.offset 0 = .ok (0, 0) := by simp [removing]
      rw [hr]
      simp only [Res.bind_ok]
      unfold updateO
      rw [slc_ok h1 h2 h3]
      simp only [Res.bind_ok]
      cases he : expand (List.map (cellAt st.cells) ((st.refs.take align.2.toNat).drop align.1.toNat)) with
      | none =>
        simp only [Res.bind_ok, zeroO, gt_iff_lt, Nat.lt_irrefl, if_false]
        refine ⟨_, rfl, by simp, rfl, by simp, by simp, rfl, fun _ _ => rfl, List.prefix_refl _⟩
      | some o =>
        simp only [Res.bind_ok, zeroO, gt_iff_lt, Nat.lt_irrefl, if_false]
        refine ⟨_, rfl, by simp, rfl, by simp, by simp, ?_, ?_, List.prefix_append _ _⟩
        · dsimp only
          rw [putRefs_length h1 h2 h3]
          simp only [List.length_map, List.length_range, List.length_drop, List.length_take]
          omega
        · intro k hk
          dsimp only
          unfold putRefs
          simp only [List.length_map, List.length_drop, List.length_take]
          rw [List.drop_append, List.drop_of_length_le, List.nil_append, List.drop_drop]
          · congr 1
            simp only [List.length_append, List.length_map, List.length_range, List.length_take]
            omega
          · simp only [List.length_append, List.length_map, List.length_range, List.length_take]
            omega
    obtain ⟨st1, s1, s2, s3, s4, s5, s6, s7, s8⟩ := hstep
    obtain ⟨st2, t1, t2, t3, t4, t5, t6, t7⟩ := ih (st := st1) (by rw [s5]; exact hi) (by rw [s5]; exact hal) h1 h2
      (by rw [s6]; exact h3)
    refine ⟨st2, by rw [s1]; exact t1, ?_, by rw [t3, s3]; simp, by rw [t4, s4, blen_cons]; omega,
      by rw [t5, s6], fun k hk => by rw [t6 k hk, s7 k hk], s8.trans t7⟩
    rw [t2, s2, List.append_assoc, List.replicate_append_replicate, blen_cons]

/-! ### The state of `Replace` between two matches -/

/-- The text before a position `u` of the original has become `u'` with alignments `A`; the rest
`v` is as it was. The text begins `sh` bytes into the input. -/
structure RInv (sh : Int) (u u' v : Str) (A : List (Int × Int)) (n : NStr) : Prop where
  original : n.original = encStr (u ++ v)
  normalized : n.normalized = encStr (u' ++ v)
  aligns : n.aligns = A ++ byteRanges v (blen u)
  lenA : A.length = blen u'
  lenO : n.refs.length = blen u + blen v
  tail : (n.refs.drop (blen u)).map (cellAt n.cells) = byteRanges v (blen u')
  sep : Sep v (n.refs.drop (blen u))
  shift : n.shift = sh

theorem rinv_new (s : Str) : RInv 0 [] [] s [] (newNStr (encStr s)) := by
  refine ⟨rfl, rfl, by rw [newNStr_aligns]; simp, rfl, ?_, ?_, ?_, rfl⟩
  · simp [newNStr, runes_encStr, length_alignRefs]
  · have := newNStr_alignsO s
    simpa [NStr.alignsO] using this
  · have := (sep_alignRefs s 0).1
    simpa [newNStr, runes_encStr] using this

/-- Going on to later text. -/
theorem RInv.skip {sh : Int} {u u' w v : Str} {A : List (Int × Int)} {n : NStr} (h : RInv sh u u' (w ++ v) A n) :
    RInv sh (u ++ w) (u' ++ w) v (A ++ byteRanges w (blen u)) n := by
  have ht := h.tail
  have hs := sep_append h.sep
  have hlen := h.lenO
  rw [List.drop_drop] at hs
  refine ⟨by rw [h.original, List.append_assoc], by rw [h.normalized, List.append_assoc], ?_, ?_, ?_, ?_, ?_, h.shift⟩
  · rw [h.aligns, byteRanges_append, blen_append, List.append_assoc]
  · rw [List.length_append, h.lenA, length_byteRanges, blen_append]
  · rw [hlen, blen_append, blen_append]; omega
  · rw [byteRanges_append] at ht
    have := congrArg (List.drop (blen w)) ht
    rw [List.drop_left' (length_byteRanges _ _), ← List.map_drop, List.drop_drop] at this
    rw [blen_append, this, blen_append]
  · rw [blen_append]; exact hs.2

theorem map_shift_byteRanges (v : Str) (i : Nat) (d : Int) (k : Nat) (hk : (i : Int) + d = k) :
    (byteRanges v i).map (fun p => (applySign p.1 d, applySign p.2 d)) = byteRanges v k := by
  induction v generalizing i k with
  | nil => rfl
  | cons c v ih =>
    rw [byteRanges, byteRanges, List.map_append, List.map_replicate, ih (i + c.utf8Size) (k + c.utf8Size) (by omega)]
    congr 2
    unfold applySign
    rw [if_neg (by omega), if_neg (by omega)]
    ext1 <;> omega

/-- What replacing a match needs: the match `m` and the rest `v` are as they were, the alignments
of the rest are exact, and those of the match do not go beyond it. -/
structure RMatch (sh : Int) (u u' m v : Str) (A : List (Int × Int)) (n : NStr) : Prop where
  original : n.original = encStr (u ++ (m ++ v))
  normalized : n.normalized = encStr (u' ++ (m ++ v))
  aligns : n.aligns = A ++ byteRanges (m ++ v) (blen u)
  lenA : A.length = blen u'
  lenO : n.refs.length = blen u + blen (m ++ v)
  within : ∀ r ∈ (n.refs.drop (blen u)).take (blen m), (cellAt n.cells r).2 ≤ ((blen u' + blen m : Nat) : Int)
  tail : (n.refs.drop (blen u + blen m)).map (cellAt n.cells) = byteRanges v (blen u' + blen m)
  apart : ∀ r ∈ (n.refs.drop (blen u)).take (blen m), r ∉ (n.refs.drop (blen u)).drop (blen m)
  sep : Sep v ((n.refs.drop (blen u)).drop (blen m))
  shift : n.shift = sh

theorem RInv.match {sh : Int} {u u' m v : Str} {A : List (Int × Int)} {n : NStr} (h : RInv sh u u' (m ++ v) A n) :
    RMatch sh u u' m v A n := by
  have htail := h.tail
  rw [byteRanges_append] at htail
  have hsep := sep_append h.sep
  refine ⟨h.original, h.normalized, h.aligns, h.lenA, h.lenO, ?_, ?_, hsep.1, hsep.2, h.shift⟩
  · intro r hr
    have hmem : cellAt n.cells r ∈ ((n.refs.drop (blen u)).take (blen m)).map (cellAt n.cells) :=
      List.mem_map_of_mem hr
    rw [List.map_take, htail, List.take_left' (length_byteRanges _ _)] at hmem
    exact (byteRanges_mem hmem).2.2.1
  · have h1 := congrArg (List.drop (blen m)) htail
    rw [List.drop_left' (length_byteRanges _ _), ← List.map_drop, List.drop_drop] at h1
    exact h1

/-- Replacing a match. All of the new text is aligned with the last character of the match. -/
theorem RMatch.replace {sh : Int} {u u' m v : Str} {A : List (Int × Int)} {n : NStr} {b : Str} {c : Char} (hm : m = b ++ [c])
    (h : RMatch sh u u' m v A n) (content : Str) :
    ∃ n', n.transformRange ⟨(blen u' : Int), ((blen u' + blen m : Nat) : Int), .normalized⟩
        (content.map (fun c => ([c], 1))) m.length = .ok n' ∧
      RInv sh (u ++ m) (u' ++ content) v
        (A ++ List.replicate (blen content) (((blen u + blen b : Nat) : Int), ((blen u + blen m : Nat) : Int))) n' := by
  have hnl : n.normalized.length = blen u' + (blen m + blen v) := by rw [h.normalized, length_encStr, blen_append, blen_append]
  have hal : n.aligns.length = n.normalized.length := by
    rw [h.aligns, List.length_append, h.lenA, length_byteRanges, hnl, blen_append]
  have hrl : n.refs.length = blen u + (blen m + blen v) := by rw [h.lenO, blen_append]
  have hcpos := c.utf8Size_pos
  have hbm : blen m = blen b + c.utf8Size := by rw [hm, blen_append]; simp
  have hcs : (n.normalized.take (blen u' + blen m)).drop (blen u') = encStr m := by
    rw [h.normalized, ← List.append_assoc, encStr_append, encStr_append,
      List.take_left' (by rw [List.length_append, length_encStr, length_encStr]), List.drop_left' (length_encStr _)]
  have hdropA : n.aligns.drop (blen u') = byteRanges m (blen u) ++ byteRanges v (blen u + blen m) := by
    rw [h.aligns, List.drop_left' h.lenA, byteRanges_append]
  have h1 := h.tail
  -- zeroing
  obtain ⟨cells, c1, c2, c3⟩ := clearChars_exact (al := n.aligns) (refs := n.refs) m (i := blen u) (off := blen u') (oShift := 0)
    (cells := n.cells) (ess := ((blen u' + blen m : Nat) : Int))
    (by rw [hdropA, List.take_left' (length_byteRanges _ _)]) (by omega) (by omega) (by omega)
    h.within
  -- inserting
  have hlast : n.aligns[blen m + blen u' - 1]? = some (((blen u + blen b : Nat) : Int), ((blen u + blen m : Nat) : Int)) := by
    have e : blen m + blen u' - 1 = blen u' + (blen m - 1) := by omega
    rw [e, ← List.getElem?_drop, hdropA, List.getElem?_append_left (by rw [length_byteRanges]; omega), hm, byteRanges_append,
      List.getElem?_append_right (by rw [length_byteRanges, blen_append]; simp; omega), length_byteRanges]
    simp only [byteRanges, List.append_nil]
    rw [List.getElem?_replicate]
    rw [if_pos (by rw [blen_append]; simp; omega), blen_append]
    simp
    omega
  obtain ⟨st, s1, s2, s3, s4, s5, s6, s7⟩ := changeLoop_insert (al := n.aligns)
    (align := (((blen u + blen b : Nat) : Int), ((blen u + blen m : Nat) : Int))) content
    (st := { refs := n.refs, cells := cells, rest := m, offset := blen m + blen u', oShift := -(blen m : Int), als := [], out := [] })
    (by dsimp only; omega) hlast (by dsimp only; omega) (by dsimp only; omega) (by dsimp only; omega)
  dsimp only at s2 s3 s4 s5 s6 s7
  have s6' := s6 (blen u + blen m) (Int.le_refl _)
  -- the slices after the match
  have hcell : (st.refs.drop (blen u + blen m)).map (cellAt st.cells) = byteRanges v (blen u' + blen m) := by
    rw [s6', ← h1]
    apply List.map_congr_left
    intro x hx
    have hx' : x ∈ (n.refs.drop (blen u)).drop (blen m) := by rw [List.drop_drop]; exact hx
    have hnot : x ∉ (n.refs.drop (blen u)).take (blen m) := fun hm => h.apart x hm hx'
    rw [← c3 x hnot]
    obtain ⟨more, hmore⟩ := s7
    rw [← hmore]
    by_cases hxl : x < cells.length
    · unfold cellAt
      rw [List.getElem?_append_left hxl]
    · exfalso
      have hz : cellAt n.cells x = (0, 0) := by
        unfold cellAt
        rw [List.getElem?_eq_none (by omega)]; rfl
      have hmem : cellAt n.cells x ∈ ((n.refs.drop (blen u + blen m)).map (cellAt n.cells)) := List.mem_map_of_mem hx
      rw [h1, hz] at hmem
      have := (byteRanges_mem hmem).2.2.2
      dsimp only at this
      omega
  have hsepv : Sep v (st.refs.drop (blen u + blen m)) := by
    rw [s6', ← List.drop_drop]; exact h.sep
  -- the shift
  have hshift : ∃ tl, shiftTail n.aligns ((blen u' + blen m : Nat) : Int) st.oShift st.refs st.cells = .ok tl ∧
      tl.1.length = st.refs.length ∧
      (tl.1.drop (blen u + blen m)).map (cellAt tl.2) = byteRanges v (blen u' + blen content) ∧
      Sep v (tl.1.drop (blen u + blen m)) := by
    unfold shiftTail
    by_cases h0 : st.oShift ≠ 0
    · rw [if_pos h0, slc_ok (by omega) (by omega) (by omega)]
      simp only [Res.bind_ok, Int.toNat_natCast, List.take_length]
      have hd : n.aligns.drop (blen u' + blen m) = byteRanges v (blen u + blen m) := by
        rw [← List.drop_drop, hdropA, List.drop_left' (length_byteRanges _ _)]
      rw [hd]
      by_cases hv : v = []
      · subst hv
        simp only [byteRanges, expand, List.head?_nil]
        refine ⟨_, rfl, rfl, ?_, hsepv⟩
        rw [hcell]; rfl
      · rw [expand_byteRanges v _ hv]
        dsimp only
        rw [slc_ok (by omega) (by omega) (by rw [s5, hrl]; omega)]
        simp only [Res.bind_ok, Int.toNat_natCast]
        refine ⟨_, rfl, ?_, ?_, ?_⟩
        · dsimp only
          rw [putRefs_length (by omega) (by omega) (by rw [s5, hrl]; omega)]
          simp only [List.length_map, List.length_range, List.length_drop, List.length_take]
          rw [s5, hrl]
          omega
        all_goals
          dsimp only
          have hseg : (st.refs.take (blen u + blen m + blen v)).drop (blen u + blen m) = st.refs.drop (blen u + blen m) := by
            rw [List.take_of_length_le (by rw [s5, hrl]; omega)]
          rw [hseg]
          have hput : ∀ new : List Nat, (putRefs st.refs ((blen u + blen m : Nat) : Int) ((blen u + blen m + blen v : Nat) : Int) new).drop (blen u + blen m) = new := by
            intro new
            unfold putRefs
            rw [Int.toNat_natCast, Int.toNat_natCast, List.drop_of_length_le (i := blen u + blen m + blen v) (by rw [s5, hrl]; omega),
              List.append_nil, List.drop_left' (by rw [List.length_take, s5, hrl]; omega)]
          rw [hput]
        · have e : (List.map (fun x => x + st.cells.length) (List.range (List.map (fun r => (applySign (cellAt st.cells r).1 st.oShift, applySign (cellAt st.cells r).2 st.oShift)) (st.refs.drop (blen u + blen m))).length)).map
              (cellAt (st.cells ++ List.map (fun r => (applySign (cellAt st.cells r).1 st.oShift, applySign (cellAt st.cells r).2 st.oShift)) (st.refs.drop (blen u + blen m)))) =
              List.map (fun r => (applySign (cellAt st.cells r).1 st.oShift, applySign (cellAt st.cells r).2 st.oShift)) (st.refs.drop (blen u + blen m)) := by
            generalize List.map (fun r => (applySign (cellAt st.cells r).1 st.oShift, applySign (cellAt st.cells r).2 st.oShift)) (st.refs.drop (blen u + blen m)) = new
            rw [List.map_map]
            conv => rhs; rw [← map_range_cells new]
            apply List.map_congr_left
            intro x _
            show cellAt (st.cells ++ new) (x + st.cells.length) = _
            unfold cellAt
            rw [List.getElem?_append_right (by omega)]
            congr 2
            omega
          rw [e]
          have : (fun r => (applySign (cellAt st.cells r).1 st.oShift, applySign (cellAt st.cells r).2 st.oShift)) =
              (fun p : Int × Int => (applySign p.1 st.oShift, applySign p.2 st.oShift)) ∘ cellAt st.cells := rfl
          rw [this, ← List.map_map, hcell]
          exact map_shift_byteRanges v _ _ _ (by rw [s4]; omega)
        · apply sep_nodup
          · simp only [List.length_map, List.length_range, List.length_drop]
            rw [s5, hrl]; omega
          · exact List.pairwise_map.mpr (List.nodup_range.imp (fun hab e => hab (by omega)))
    · rw [if_neg h0]
      refine ⟨_, rfl, rfl, ?_, hsepv⟩
      rw [hcell]
      congr 1
      have : st.oShift = 0 := by simpa using h0
      omega
  obtain ⟨tl, t1, t2, t3, t4⟩ := hshift
  have hexec : n.transformRange ⟨(blen u' : Int), ((blen u' + blen m : Nat) : Int), .normalized⟩
        (content.map (fun c => ([c], 1))) m.length = .ok { n with
          normalized := n.normalized.take (blen u') ++ encStr st.out ++ n.normalized.drop (blen u' + blen m)
          aligns := n.aligns.take (blen u') ++ st.als ++ n.aligns.drop (blen u' + blen m)
          refs := tl.1
          cells := tl.2 } := by
    unfold NStr.transformRange
    simp only [full_eq (a := blen u') (b := blen u' + blen m) (N := n.normalized.length) .normalized (by omega), Res.bind_ok]
    rw [if_neg (by omega), slc_ok (by omega) (by omega) (by omega)]
    simp only [Res.bind_ok, Int.toNat_natCast, hcs, runes_encStr, List.take_length]
    rw [if_neg (by omega), c1]
    simp only [Res.bind_ok]
    rw [s1]
    simp only [Res.bind_ok]
    rw [t1]
    simp only [Res.bind_ok]
    rw [slc_ok (by omega) (by omega) (by omega), slc_ok (by omega) (by omega) (by omega)]
    simp only [Res.bind_ok]
    rw [slc_ok (by omega) (by omega) (by omega), slc_ok (by omega) (by omega) (by omega)]
    simp only [Res.bind_ok, Int.toNat_natCast, Int.toNat_zero, List.drop_zero, List.take_length]
  refine ⟨_, hexec, ?_, ?_, ?_, ?_, ?_, ?_, ?_, h.shift⟩
  · dsimp only; rw [h.original, List.append_assoc]
  · dsimp only
    rw [s3, List.nil_append, h.normalized, encStr_append u', List.take_left' (length_encStr _), ← List.drop_drop,
      List.drop_left' (length_encStr _), encStr_append m, List.drop_left' (length_encStr _), encStr_append, encStr_append]
  · dsimp only
    rw [s2, List.nil_append, ← List.drop_drop, hdropA, List.drop_left' (length_byteRanges _ _), h.aligns, List.take_left' h.lenA,
      blen_append]
  · rw [List.length_append, h.lenA, List.length_replicate, blen_append]
  · dsimp only; rw [t2, s5, hrl, blen_append]; omega
  · dsimp only; rw [blen_append, t3, blen_append]
  · dsimp only; rw [blen_append]; exact t4

theorem RInv.replace {sh : Int} {u u' m v : Str} {A : List (Int × Int)} {n : NStr} {b : Str} {c : Char} (hm : m = b ++ [c])
    (h : RInv sh u u' (m ++ v) A n) (content : Str) :
    ∃ n', n.transformRange ⟨(blen u' : Int), ((blen u' + blen m : Nat) : Int), .normalized⟩
        (content.map (fun c => ([c], 1))) m.length = .ok n' ∧
      RInv sh (u ++ m) (u' ++ content) v
        (A ++ List.replicate (blen content) (((blen u + blen b : Nat) : Int), ((blen u + blen m : Nat) : Int))) n' :=
  h.match.replace hm content

end Tok.Norm
