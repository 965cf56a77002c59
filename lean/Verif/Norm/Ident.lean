import Verif.Norm.Bert

/-! Change lists that change nothing, on strings whose text has the shape of its original. -/

namespace Tok.Norm

/-- The text lies over its original: both alignments are those of a new string. -/
structure Same (n : NStr) (cs : Str) : Prop where
  text : n.normalized = encStr cs
  lenO : n.original.length = blen cs
  aligns : n.aligns = byteRanges cs 0
  alignsO : n.alignsO = byteRanges cs 0

theorem Same.fresh (cs : Str) : Same (newNStr (encStr cs)) cs :=
  ⟨rfl, by simp [newNStr, length_encStr], newNStr_aligns cs, newNStr_alignsO cs⟩

/-- The alignments only depend on the sizes of the characters. -/
theorem byteRanges_sizes : ∀ (cs ds : Str) (cur : Nat), ds.map Char.utf8Size = cs.map Char.utf8Size →
    byteRanges ds cur = byteRanges cs cur ∧ blen ds = blen cs := by
  intro cs
  induction cs with
  | nil => intro ds cur h; rw [List.map_nil, List.map_eq_nil_iff] at h; subst h; exact ⟨rfl, rfl⟩
  | cons c cs ih =>
    intro ds cur h
    cases ds with
    | nil => simp at h
    | cons d ds =>
      rw [List.map_cons, List.map_cons, List.cons.injEq] at h
      obtain ⟨h1, h2⟩ := ih ds (cur + c.utf8Size) h.2
      simp only [byteRanges, h.1, h1, blen_cons, h2, and_self]

theorem Same.recase {n : NStr} {cs ds : Str} (h : Same n cs) {f : List UInt8 → List UInt8}
    (hf : f (encStr cs) = encStr ds) (hs : ds.map Char.utf8Size = cs.map Char.utf8Size) :
    Same (n.recase f) ds := by
  obtain ⟨h1, h2⟩ := byteRanges_sizes cs ds 0 hs
  refine ⟨?_, ?_, ?_, ?_⟩
  · show f n.normalized = _
    rw [h.text, hf]
  · rw [h2]; exact h.lenO
  · rw [h1]; exact h.aligns
  · rw [h1]; exact h.alignsO

theorem blen_pos {s : Str} (hs : s ≠ []) : 0 < blen s := by
  cases s with
  | nil => exact absurd rfl hs
  | cons c s => have := c.utf8Size_pos; simp; omega

theorem Same.wf {n : NStr} {cs : Str} (h : Same n cs) : WF n := by
  refine ⟨?_, ?_, ?_, ?_⟩
  · rw [h.aligns, length_byteRanges, h.text, length_encStr]
  · have : n.alignsO.length = n.refs.length := by simp [NStr.alignsO]
    rw [← this, h.alignsO, length_byteRanges, h.lenO]
  · intro p hp
    rw [h.aligns] at hp
    have := byteRanges_mem hp
    rw [h.lenO]; omega
  · rw [h.aligns]; exact byteRanges_nd cs 0

theorem Same.cover {n : NStr} {cs : Str} (h : Same n cs) : Cover n := by
  have hn : n.normalized.length = blen cs := by rw [h.text, length_encStr]
  have ho : n.alignsO.length = blen cs := by rw [h.alignsO, length_byteRanges]
  unfold Cover NStr.convert
  have hf : (⟨0, (n.original.length : Int), .original⟩ : Rng).full n.original.length =
      ⟨0, (blen cs : Int), .original⟩ := by simp [Rng.full, h.lenO]
  simp only [hf]
  by_cases hs : cs = []
  · subst hs
    exact ⟨⟨0, 0, .original⟩, by simp, rfl, by rw [hn]; simp⟩
  · have hne := blen_pos hs
    rw [if_neg (by omega), if_neg (by rw [ho]; omega)]
    have hsl : slc n.alignsO 0 (blen cs : Int) = .ok (byteRanges cs 0) := by
      rw [← ho, slc_all, h.alignsO]
    rw [hsl]
    simp only [Res.bind_ok, expand_byteRanges cs 0 hs]
    exact ⟨_, rfl, by simp, by rw [hn]; simp⟩

theorem cellAt_append {cells new : List (Int × Int)} {r : Nat} (h : r < cells.length) :
    cellAt (cells ++ new) r = cellAt cells r := by
  unfold cellAt; rw [List.getElem?_append_left h]

theorem map_new (cells new : List (Int × Int)) :
    ((List.range new.length).map (· + cells.length)).map (cellAt (cells ++ new)) = new := by
  apply List.ext_getElem
  · simp
  · intro i h1 h2
    simp only [List.getElem_map, List.getElem_range, cellAt]
    rw [List.getElem?_append_right (by omega), Nat.add_sub_cancel, List.getElem?_eq_getElem h2]
    rfl

theorem expand_replicate (k : Nat) (p : Int × Int) : expand (List.replicate (k + 1) p) = some p := by
  unfold expand
  have h1 : (List.replicate (k + 1) p).head? = some p := by simp [List.replicate_succ]
  have h2 : (List.replicate (k + 1) p).getLast? = some p := by simp [List.replicate_succ', List.getLast?_append]
  rw [h1, h2]

theorem changeLoop_ident : ∀ (rest done : Str) (st : TState), '\x00' ∉ rest →
    st.refs.map (cellAt st.cells) = byteRanges (done ++ rest) 0 → st.rest = rest →
    st.offset = blen done → st.oShift = 0 →
    ∃ st', changeLoop (byteRanges (done ++ rest) 0) (rest.map (fun c => ([c], 0))) st = .ok st' ∧
      st'.refs.map (cellAt st'.cells) = byteRanges (done ++ rest) 0 ∧ st'.oShift = 0 := by
  intro rest
  induction rest with
  | nil => intro done st _ h1 _ _ h4; exact ⟨st, rfl, h1, h4⟩
  | cons c rest ih =>
    intro done st hz h1 h2 h3 h4
    have hc0 : c ≠ '\x00' := fun h => hz (by simp [h])
    obtain ⟨k, hk⟩ : ∃ k, c.utf8Size = k + 1 := ⟨c.utf8Size - 1, by have := c.utf8Size_pos; omega⟩
    have hsplit : byteRanges (done ++ c :: rest) 0 = byteRanges done 0 ++
        List.replicate c.utf8Size ((blen done : Int), ((blen done + c.utf8Size : Nat) : Int)) ++
        byteRanges rest (blen done + c.utf8Size) := by
      rw [byteRanges_append, byteRanges, ← List.append_assoc]; simp
    have hlen : st.refs.length = blen (done ++ c :: rest) := by
      have := congrArg List.length h1
      rwa [List.length_map, length_byteRanges] at this
    rw [blen_append, blen_cons] at hlen
    -- the alignment of the character
    have hal : pickAlign (byteRanges (done ++ c :: rest) 0) 0 st.offset =
        .ok ((blen done : Int), ((blen done + c.utf8Size : Nat) : Int)) := by
      unfold pickAlign
      have hl : (byteRanges (done ++ c :: rest) 0).length = blen done + (c.utf8Size + blen rest) := by
        rw [length_byteRanges, blen_append, blen_cons]
      rw [if_neg (by omega), if_neg (by rw [h3, hl]; omega), h3]
      have := byteRanges_at done c rest 0 (by omega)
      simp only [Nat.add_zero] at this
      simp only [idx, Int.toNat_natCast, this]
      rw [if_neg (by omega)]
    -- the slices of the character
    have hseg : slc st.refs ((blen done : Int)) ((blen done + c.utf8Size : Nat) : Int) =
        .ok ((st.refs.take (blen done + c.utf8Size)).drop (blen done)) := by
      rw [slc_ok (by omega) (by omega) (by rw [hlen]; omega), Int.toNat_natCast, Int.toNat_natCast]
    have hvals : ((st.refs.take (blen done + c.utf8Size)).drop (blen done)).map (cellAt st.cells) =
        List.replicate c.utf8Size ((blen done : Int), ((blen done + c.utf8Size : Nat) : Int)) := by
      rw [List.map_drop, List.map_take, h1, hsplit]
      have e1 : (byteRanges done 0).length = blen done := length_byteRanges _ _
      rw [List.take_append_of_le_length (by simp [e1])]
      rw [List.take_of_length_le (by simp [e1]), List.drop_append_of_le_length (by simp [e1])]
      rw [List.drop_of_length_le (by simp [e1])]; simp
    have hcell : ∀ r ∈ st.refs, r < st.cells.length := by
      intro r hr
      have hm : cellAt st.cells r ∈ byteRanges (done ++ c :: rest) 0 := by
        rw [← h1]; exact List.mem_map_of_mem hr
      have := byteRanges_mem hm
      unfold cellAt at this
      by_cases hlt : r < st.cells.length
      · exact hlt
      · rw [List.getElem?_eq_none (by omega)] at this
        simp at this
    have hstep : ∃ st1, changeStep (byteRanges (done ++ c :: rest) 0) ([c], 0) st = .ok st1 ∧
        st1.refs.map (cellAt st1.cells) = byteRanges (done ++ c :: rest) 0 ∧ st1.rest = rest ∧
        st1.offset = blen done + c.utf8Size ∧ st1.oShift = 0 := by
      unfold changeStep
      simp only [hal, Res.bind_ok, Int.le_refl, if_true, h2, List.head?_cons, List.tail_cons,
        replacedSize, if_neg hc0, Int.lt_irrefl, if_false, removedSize, removing, Nat.lt_irrefl,
        false_and, gt_iff_lt]
      have hnew : ∀ o, o = ((blen done : Int), ((blen done + c.utf8Size : Nat) : Int)) →
          newOffsets 0 (blen [c]) ((blen [c] : Int) - (c.utf8Size : Int))
            ((blen [c] : Int) - (((blen done + c.utf8Size : Nat) : Int) - (blen done : Int))) 0 st.oShift o = o := by
        intro o ho
        subst ho
        have hb : blen [c] = c.utf8Size := by simp
        unfold newOffsets
        rw [if_neg (by omega), if_pos (by right; rw [hb]; omega), h4, hb]
        unfold applySign
        simp only [Prod.mk.injEq]
        constructor
        · rw [if_neg (by omega)]; omega
        · rw [if_neg (by omega), if_neg (by omega), if_neg (by omega)]
          omega
      have hup : updateO 0 (blen [c]) ((blen [c] : Int) - (c.utf8Size : Int)) 0 st.oShift
          ((blen done : Int), ((blen done + c.utf8Size : Nat) : Int)) st.refs st.cells =
          .ok (putRefs st.refs (blen done : Int) ((blen done + c.utf8Size : Nat) : Int)
            ((List.range (List.replicate c.utf8Size ((blen done : Int), ((blen done + c.utf8Size : Nat) : Int))).length).map (· + st.cells.length)),
            st.cells ++ List.replicate c.utf8Size ((blen done : Int), ((blen done + c.utf8Size : Nat) : Int))) := by
        unfold updateO
        simp only [hseg, Res.bind_ok, hvals]
        rw [hk, expand_replicate, ← hk]
        simp only
        have : (List.replicate c.utf8Size ((blen done : Int), ((blen done + c.utf8Size : Nat) : Int))).map
            (newOffsets 0 (blen [c]) ((blen [c] : Int) - (c.utf8Size : Int))
            ((blen [c] : Int) - (((blen done + c.utf8Size : Nat) : Int) - (blen done : Int))) 0 st.oShift) =
            List.replicate c.utf8Size ((blen done : Int), ((blen done + c.utf8Size : Nat) : Int)) := by
          rw [List.map_replicate, hnew _ rfl]
        rw [this]
      rw [hup]
      simp only [Res.bind_ok, zeroO, Nat.lt_irrefl, if_false, gt_iff_lt]
      refine ⟨_, rfl, ?_, by simp, by simp only [h3]; omega, ?_⟩
      · simp only [putRefs, Int.toNat_natCast, List.map_append, map_new]
        rw [hsplit]
        have hm : ∀ l : List Nat, (∀ r ∈ l, r ∈ st.refs) → ∀ new, l.map (cellAt (st.cells ++ new)) = l.map (cellAt st.cells) := by
          intro l hl new
          apply List.map_congr_left
          intro r hr
          exact cellAt_append (hcell r (hl r hr))
        rw [hm _ (fun r hr => List.mem_of_mem_take hr), hm _ (fun r hr => List.mem_of_mem_drop hr),
          List.map_take, List.map_drop, h1, hsplit]
        have e1 : (byteRanges done 0).length = blen done := length_byteRanges _ _
        congr 1
        · congr 1
          rw [List.append_assoc, List.take_append_of_le_length (by omega), List.take_of_length_le (by omega)]
        · rw [List.drop_append_of_le_length (by simp [e1]), List.drop_of_length_le (by simp [e1])]; simp
      · rw [h4]; simp
    obtain ⟨st1, s1, s2, s3, s4, s5⟩ := hstep
    have hd : done ++ c :: rest = (done ++ [c]) ++ rest := by simp
    obtain ⟨st', t1, t2, t3⟩ := ih (done ++ [c]) st1 (fun h => hz (List.mem_cons_of_mem _ h))
      (by rw [← hd]; exact s2) s3 (by rw [s4, blen_append]; simp) s5
    refine ⟨st', ?_, by rw [hd]; exact t2, t3⟩
    rw [List.map_cons, changeLoop, s1, Res.bind_ok]
    rw [← hd] at t1
    exact t1

theorem usesAll_ident (cs : Str) : usesAll (cs.map (fun c => ([c], (0 : Int)))) = cs.length := by
  induction cs with
  | nil => rfl
  | cons c cs ih => rw [List.map_cons, usesAll_cons, ih]; simp [uses]; omega

theorem flatten_ident (cs : Str) (k : Int) :
    ((cs.map (fun c => ([c], k))).map (·.1)).flatten = cs := by
  induction cs with
  | nil => rfl
  | cons c cs ih => simp only [List.map_cons, List.flatten_cons, ih]; rfl

theorem sources_ident (cs : Str) : sources cs 0 (cs.map (fun c => ([c], (0 : Int)))) = byteRanges cs 0 := by
  have key : ∀ (rest done : Str), sources (done ++ rest) done.length (rest.map (fun c => ([c], (0 : Int)))) =
      byteRanges rest (blen done) := by
    intro rest
    induction rest with
    | nil => intro done; rfl
    | cons c rest ih =>
      intro done
      rw [List.map_cons, sources, byteRanges]
      have := ih (done ++ [c])
      rw [List.append_assoc, List.singleton_append, List.length_append, blen_append] at this
      have hu : uses 0 = 1 := by decide
      rw [hu]
      simp only [List.length_singleton, blen_cons, blen_nil, Nat.add_zero] at this
      rw [this]
      congr 1
      simp only [gt_iff_lt, Int.lt_irrefl, if_false, charRange, blen_cons, blen_nil, Nat.add_zero]
      congr 2
      · simp
      · rw [show done ++ c :: rest = (done ++ [c]) ++ rest by simp,
          List.take_append_of_le_length (by simp), List.take_of_length_le (by simp), blen_append]
        simp
  have := key cs []
  simpa using this

/-- A change list that keeps every character changes nothing. -/
theorem Same.ident {n : NStr} {cs : Str} (h : Same n cs) (hz : '\x00' ∉ cs) :
    ∃ n', n.transform (cs.map (fun c => ([c], 0))) 0 = .ok n' ∧ Same n' cs ∧ n'.original = n.original := by
  have hw := h.wf
  have hlen : n.normalized.length = blen cs := by rw [h.text, length_encStr]
  rw [transform_eq h.cover hw.lenA]
  obtain ⟨n', h1, ho, he⟩ := transformRange_ok hw (a := 0) (b := n.normalized.length)
    (items := cs.map (fun c => ([c], 0))) (by omega) (by omega) (cs := cs) (by rw [h.text]; simp)
    (by rw [usesAll_ident]; omega)
  refine ⟨n', h1, ⟨?_, ?_, ?_, ?_⟩, ho.original⟩
  · have := ho.text
    rw [flatten_ident] at this
    simpa using this
  · rw [ho.original, h.lenO]
  · rw [(he hz).1, ← hw.lenA]
    simp only [List.take_zero, List.nil_append, List.drop_length, List.append_nil]
    have := sourcesAt_fresh cs (cs.map (fun c => ([c], (0 : Int)))) 0 (by rw [usesAll_ident]; omega)
    rw [h.aligns, ← sources_ident cs]
    simp only [List.take_zero, blen_nil, List.drop_zero] at this
    rw [← sources_ident cs] at this
    exact this
  · -- the loop
    unfold NStr.transformRange at h1
    have hfull : (⟨((0 : Nat) : Int), (n.normalized.length : Int), .normalized⟩ : Rng).full
        n.normalized.length = ⟨0, (n.normalized.length : Int), .normalized⟩ := by simp [Rng.full]
    simp only [hfull, Res.bind_ok, hw.lenA] at h1
    rw [if_neg (by omega), slc_all] at h1
    simp only [Res.bind_ok, h.text, runes_encStr, Nat.not_lt_zero, gt_iff_lt, if_false, List.take_zero,
      clearChars, blen_nil] at h1
    obtain ⟨st', t1, t2, t3⟩ := changeLoop_ident cs [] ⟨n.refs, n.cells, cs, 0, 0, [], []⟩ hz
      (by rw [List.nil_append]; exact h.alignsO) rfl rfl rfl
    rw [List.nil_append, ← h.aligns] at t1
    have e : (⟨n.refs, n.cells, cs, 0 + (0 : Int).toNat, -((0 : Nat) : Int), [], []⟩ : TState) =
      ⟨n.refs, n.cells, cs, 0, 0, [], []⟩ := by simp
    rw [e, t1] at h1
    simp only [Res.bind_ok, shiftTail, t3, ne_eq, not_true_eq_false, if_false] at h1
    obtain ⟨_, _, h1⟩ := Res.bind_eq_ok.mp h1
    obtain ⟨_, _, h1⟩ := Res.bind_eq_ok.mp h1
    obtain ⟨_, _, h1⟩ := Res.bind_eq_ok.mp h1
    obtain ⟨_, _, h1⟩ := Res.bind_eq_ok.mp h1
    cases h1
    exact t2

end Tok.Norm
