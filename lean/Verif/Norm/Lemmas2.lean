import Verif.Norm.Lemmas

/-! `TransformRange` as a whole. -/

namespace Tok.Norm

theorem changeStep_rest {al : List (Int × Int)} {item : Str × Int} {st st' : TState}
    (h : changeStep al item st = .ok st') : st'.rest = st.rest.drop (uses item.2) := by
  obtain ⟨_, _, _, _, hrest, _, _⟩ := changeStep_eq h
  rw [hrest]
  unfold uses
  by_cases h0 : item.2 ≤ 0
  · rw [if_pos h0, if_neg (by omega), ← List.drop_one, List.drop_drop]
  · rw [if_neg h0, if_pos (by omega)]; rfl

/-- Progress of the offset by exactly the bytes used up, when no character is NUL. -/
theorem changeStep_offset {al : List (Int × Int)} {item : Str × Int} {st st' : TState}
    (h : changeStep al item st = .ok st') (huse : uses item.2 ≤ st.rest.length) :
    st.offset ≤ st'.offset ∧ st'.offset ≤ st.offset + blen (st.rest.take (uses item.2)) ∧
    ('\x00' ∉ st.rest → st'.offset = st.offset + blen (st.rest.take (uses item.2))) := by
  obtain ⟨_, _, _, _, _, hoff, _⟩ := changeStep_eq h
  rw [hoff]
  unfold uses at huse ⊢
  by_cases h0 : item.2 ≤ 0
  · rw [if_pos h0, if_neg (by omega)]
    rw [if_neg (by omega)] at huse
    cases hr : st.rest with
    | nil => rw [hr] at huse; simp at huse
    | cons c cs =>
      rw [hr] at huse
      simp only [List.head?_cons, List.tail_cons]
      rw [removedSize_le _ _ (by simp at huse; omega), Nat.add_comm 1, List.take_succ_cons, blen_cons]
      refine ⟨by omega, ?_, ?_⟩
      · have : replacedSize (some c) ≤ c.utf8Size := by simp only [replacedSize]; split <;> omega
        omega
      · intro hn
        have hcn : c ≠ '\x00' := fun e => hn (by rw [e]; simp)
        simp only [replacedSize, if_neg hcn]
        omega
  · rw [if_neg h0, if_pos (by omega)]
    simp

theorem usesAll_cons (item : Str × Int) (items : List (Str × Int)) :
    usesAll (item :: items) = uses item.2 + usesAll items := by simp [usesAll]

theorem changeLoop_offset {al : List (Int × Int)} (items : List (Str × Int)) :
    ∀ {st st' : TState}, changeLoop al items st = .ok st' → usesAll items ≤ st.rest.length →
    st.offset ≤ st'.offset ∧ st'.offset + blen st'.rest ≤ st.offset + blen st.rest := by
  induction items with
  | nil => intro st st' h _; rw [changeLoop] at h; cases h; exact ⟨Nat.le_refl _, Nat.le_refl _⟩
  | cons item items ih =>
    intro st st' h huse
    rw [usesAll_cons] at huse
    rw [changeLoop] at h
    obtain ⟨st1, h1, h2⟩ := Res.bind_eq_ok.mp h
    have hr := changeStep_rest h1
    have ho := changeStep_offset h1 (by omega)
    have := ih h2 (by rw [hr, List.length_drop]; omega)
    have hb := blen_take_drop st.rest (uses item.2)
    rw [hr] at this
    omega

/-- Emitted alignments are not before those of the bytes preceding the first offset. -/
theorem changeLoop_low {al : List (Int × Int)} (hm : NonDecreasing al)
    (items : List (Str × Int)) : ∀ {st st' : TState}, changeLoop al items st = .ok st' →
    usesAll items ≤ st.rest.length →
    ∀ p ∈ st'.als, p ∈ st.als ∨ ∀ (k : Nat) (hk : k < al.length), k < st.offset →
      (al[k]).1 ≤ p.1 ∧ (al[k]).2 ≤ p.2 := by
  induction items with
  | nil => intro st st' h _ p hp; rw [changeLoop] at h; cases h; exact .inl hp
  | cons item items ih =>
    intro st st' h huse p hp
    rw [usesAll_cons] at huse
    rw [changeLoop] at h
    obtain ⟨st1, h1, h2⟩ := Res.bind_eq_ok.mp h
    have hr := changeStep_rest h1
    have ho := (changeStep_offset h1 (by omega)).1
    obtain ⟨align, ha, hals, _, _, _, _⟩ := changeStep_eq h1
    rcases ih h2 (by rw [hr, List.length_drop]; omega) p hp with h | h
    · rw [hals] at h
      rcases List.mem_append.mp h with h | h
      · exact .inl h
      · refine .inr (fun k hk hlt => ?_)
        rw [(List.mem_replicate.mp h).2]
        unfold pickAlign at ha
        by_cases hpos' : item.2 > 0
        · rw [if_pos hpos'] at ha
          rw [if_neg (by omega)] at ha
          obtain ⟨_, hg⟩ := idx_eq_ok ha
          rw [show ((st.offset : Int) - 1).toNat = st.offset - 1 by omega] at hg
          obtain ⟨hlt', hg⟩ := List.getElem?_eq_some_iff.mp hg
          subst hg
          exact nd_get hm (by omega) hlt'
        · rw [if_neg hpos'] at ha
          by_cases hi : st.offset ≥ al.length
          · rw [if_pos hi] at ha
            obtain ⟨_, hg⟩ := idx_eq_ok ha
            rw [show ((al.length : Int) - 1).toNat = al.length - 1 by omega] at hg
            obtain ⟨hlt', hg⟩ := List.getElem?_eq_some_iff.mp hg
            subst hg
            exact nd_get hm (by omega) hlt'
          · rw [if_neg hi] at ha
            obtain ⟨_, hg⟩ := idx_eq_ok ha
            rw [Int.toNat_natCast] at hg
            obtain ⟨hlt', hg⟩ := List.getElem?_eq_some_iff.mp hg
            subst hg
            exact nd_get hm (by omega) hlt'
    · exact .inr (fun k hk hlt => h k hk (by omega))

/-- Emitted alignments are not after those of the bytes following the last offset. -/
theorem changeLoop_high {N : Nat} {al : List (Int × Int)} (hw : Within N al) (hm : NonDecreasing al)
    (items : List (Str × Int)) : ∀ {st st' : TState}, changeLoop al items st = .ok st' →
    usesAll items ≤ st.rest.length → '\x00' ∉ st.rest →
    (∀ p ∈ st.als, ∀ (j : Nat) (hj : j < al.length), st.offset ≤ j + 1 →
      p.1 ≤ (al[j]).1 ∧ p.2 ≤ (al[j]).2) →
    (∀ p ∈ st'.als, ∀ (j : Nat) (hj : j < al.length), st'.offset ≤ j + 1 →
      p.1 ≤ (al[j]).1 ∧ p.2 ≤ (al[j]).2) := by
  induction items with
  | nil => intro st st' h _ _ hle; rw [changeLoop] at h; cases h; exact hle
  | cons item items ih =>
    intro st st' h huse hnul hle
    rw [usesAll_cons] at huse
    rw [changeLoop] at h
    obtain ⟨st1, h1, h2⟩ := Res.bind_eq_ok.mp h
    have hr := changeStep_rest h1
    have ho := changeStep_offset h1 (by omega)
    obtain ⟨align, ha, hals, _, _, _, _⟩ := changeStep_eq h1
    refine ih h2 (by rw [hr, List.length_drop]; omega)
      (by rw [hr]; exact fun hc => hnul (List.mem_of_mem_drop hc)) ?_
    intro p hp j hj hle'
    rw [hals] at hp
    rcases List.mem_append.mp hp with h | h
    · exact hle p h j hj (by omega)
    · rw [(List.mem_replicate.mp h).2]
      unfold pickAlign at ha
      by_cases hpos' : item.2 > 0
      · rw [if_pos hpos'] at ha
        by_cases hi : st.offset < 1
        · rw [if_pos hi] at ha
          cases ha
          have := hw _ (List.getElem_mem hj); simp only; omega
        · rw [if_neg hi] at ha
          obtain ⟨_, hg⟩ := idx_eq_ok ha
          rw [show ((st.offset : Int) - 1).toNat = st.offset - 1 by omega] at hg
          obtain ⟨hlt', hg⟩ := List.getElem?_eq_some_iff.mp hg
          subst hg
          exact nd_get hm (by omega) hj
      · rw [if_neg hpos'] at ha
        have hadv : st.offset + 1 ≤ st1.offset := by
          rw [ho.2.2 hnul]
          unfold uses at huse ⊢
          rw [if_neg hpos'] at huse ⊢
          cases hrest' : st.rest with
          | nil => rw [hrest'] at huse; simp at huse
          | cons c cs =>
            have := c.utf8Size_pos
            rw [Nat.add_comm 1, List.take_succ_cons, blen_cons]
            omega
        by_cases hi : st.offset ≥ al.length
        · omega
        · rw [if_neg hi] at ha
          obtain ⟨_, hg⟩ := idx_eq_ok ha
          rw [Int.toNat_natCast] at hg
          obtain ⟨hlt', hg⟩ := List.getElem?_eq_some_iff.mp hg
          subst hg
          exact nd_get hm (by omega) hj

/-- The alignments given to the new characters: a replacing character takes that of the byte at
the current position, an inserted one that of the byte before it. -/
def sourcesAt (al : List (Int × Int)) : Nat → Str → List (Str × Int) → List (Int × Int)
  | _, _, [] => []
  | i, cs, (t, ch) :: items =>
    List.replicate (blen t)
      (if ch > 0 then (if i = 0 then (0, 0) else al[i - 1]?.getD (0, 0)) else al[i]?.getD (0, 0)) ++
      sourcesAt al (i + blen (cs.take (uses ch))) (cs.drop (uses ch)) items

theorem changeLoop_exact {al : List (Int × Int)} (items : List (Str × Int)) :
    ∀ {st st' : TState}, changeLoop al items st = .ok st' →
    usesAll items ≤ st.rest.length → '\x00' ∉ st.rest → st.offset + blen st.rest ≤ al.length →
    st'.als = st.als ++ sourcesAt al st.offset st.rest items := by
  induction items with
  | nil => intro st st' h _ _ _; rw [changeLoop] at h; cases h; simp [sourcesAt]
  | cons item items ih =>
    obtain ⟨t, ch⟩ := item
    intro st st' h huse hnul hlen
    rw [usesAll_cons] at huse
    rw [changeLoop] at h
    obtain ⟨st1, h1, h2⟩ := Res.bind_eq_ok.mp h
    have hr := changeStep_rest h1
    have ho := (changeStep_offset h1 (by omega)).2.2 hnul
    obtain ⟨align, ha, hals, _, _, _, _⟩ := changeStep_eq h1
    have hb := blen_take_drop st.rest (uses ch)
    rw [ih h2 (by rw [hr, List.length_drop]; omega)
      (by rw [hr]; exact fun hc => hnul (List.mem_of_mem_drop hc)) (by rw [hr, ho]; simp only; omega),
      hals, sourcesAt, hr, ho, List.append_assoc]
    congr 3
    unfold pickAlign at ha
    simp only at ha huse
    by_cases hpos' : ch > 0
    · rw [if_pos hpos'] at ha ⊢
      by_cases hi : st.offset < 1
      · rw [if_pos hi] at ha; cases ha; rw [if_pos (by omega)]
      · rw [if_neg hi] at ha
        obtain ⟨_, hg⟩ := idx_eq_ok ha
        rw [show ((st.offset : Int) - 1).toNat = st.offset - 1 by omega] at hg
        rw [if_neg (by omega), hg]; rfl
    · rw [if_neg hpos'] at ha ⊢
      have hne : st.offset < al.length := by
        unfold uses at huse
        rw [if_neg hpos'] at huse
        cases hrest' : st.rest with
        | nil => rw [hrest'] at huse; simp at huse
        | cons c cs =>
          have := c.utf8Size_pos
          rw [hrest', blen_cons] at hlen
          omega
      rw [if_neg (by omega)] at ha
      obtain ⟨_, hg⟩ := idx_eq_ok ha
      rw [Int.toNat_natCast] at hg
      rw [hg]; rfl

theorem runes_encStr (s : Str) : runes (encStr s) = s := by
  unfold runes
  rw [explode_encStr, List.map_map]
  induction s with
  | nil => rfl
  | cons c s ih => rw [List.map_cons, ih]; rfl

/-- What `TransformRange` does on a range of a well-formed string. -/
structure Outcome (n : NStr) (a b : Nat) (items : List (Str × Int)) (n' : NStr) : Prop where
  text : n'.normalized = n.normalized.take a ++ encStr (items.map (·.1)).flatten ++ n.normalized.drop b
  original : n'.original = n.original
  shift : n'.shift = n.shift
  lenA : n'.aligns.length = n'.normalized.length
  lenO : n'.refs.length = n'.original.length
  within : Within n'.original.length n'.aligns

/-- Any successful call, whatever the number of characters removed at the start. -/
theorem transformRange_outcome {n n' : NStr} (hw : WF n) {a b : Nat} {items : List (Str × Int)}
    {k : Nat} (h : n.transformRange ⟨a, b, .normalized⟩ items k = .ok n')
    (hb : b ≤ n.normalized.length) : Outcome n a b items n' := by
  unfold NStr.transformRange at h
  have hfull : (⟨(a : Int), (b : Int), .normalized⟩ : Rng).full n.normalized.length =
      ⟨(a : Int), (b : Int), .normalized⟩ := by
    unfold Rng.full
    simp only [Rng.mk.injEq, and_true]
    constructor
    · rw [if_neg (by omega)]
    · rw [if_neg (by omega)]
  simp only [hfull, Res.bind_ok] at h
  have hla := hw.lenA
  rw [if_neg (by omega)] at h
  obtain ⟨nb, h1, h⟩ := Res.bind_eq_ok.mp h
  split at h
  · cases h
  · obtain ⟨cl, h2, h⟩ := Res.bind_eq_ok.mp h
    obtain ⟨st, h3, h⟩ := Res.bind_eq_ok.mp h
    obtain ⟨tl, h4, h⟩ := Res.bind_eq_ok.mp h
    obtain ⟨bf, h5, h⟩ := Res.bind_eq_ok.mp h
    obtain ⟨af, h6, h⟩ := Res.bind_eq_ok.mp h
    obtain ⟨nbf, h7, h⟩ := Res.bind_eq_ok.mp h
    obtain ⟨naf, h8, h⟩ := Res.bind_eq_ok.mp h
    simp only [Res.ok.injEq] at h
    obtain ⟨c1, c2, c3, c4⟩ := changeLoop_eq _ h3
    obtain ⟨s1, s2, s3, s4⟩ := slc_eq_ok h5
    obtain ⟨t1, t2, t3, t4⟩ := slc_eq_ok h6
    obtain ⟨u1, u2, u3, u4⟩ := slc_eq_ok h7
    obtain ⟨v1, v2, v3, v4⟩ := slc_eq_ok h8
    simp only [Int.toNat_natCast, Int.toNat_zero, List.drop_zero] at s4 t4 u4 v4
    subst s4 t4 u4 v4 h
    simp only [List.nil_append, List.length_nil, Nat.zero_add] at c1 c2
    have e1 := slc_length h6
    have e2 := slc_length h8
    have e3 := length_encStr st.out
    constructor
    · simp only
      rw [c1]
      simp
    · rfl
    · rfl
    · simp only [List.length_append, List.length_take, List.length_drop] at e1 e2 ⊢
      rw [c2, length_encStr, c1]
      omega
    · simp only
      rw [shiftTail_length h4, c4]
      exact hw.lenO
    · intro p hp
      simp only at hp ⊢
      rcases List.mem_append.mp hp with hp | hp
      · rcases List.mem_append.mp hp with hp | hp
        · exact hw.within p (List.mem_of_mem_take hp)
        · rcases c3 p hp with h | h | h
          · cases h
          · exact hw.within p h
          · subst h; simp
      · exact hw.within p (List.mem_of_mem_take (List.mem_of_mem_drop hp))

/-- Without characters removed at the start the call succeeds, and the alignments are exactly
those of the characters replaced. -/
theorem transformRange_ok {n : NStr} (hw : WF n) {a b : Nat} {items : List (Str × Int)}
    (hab : a ≤ b) (hb : b ≤ n.normalized.length) {cs : Str}
    (hcs : (n.normalized.take b).drop a = encStr cs) (huse : usesAll items ≤ cs.length) :
    ∃ n', n.transformRange ⟨a, b, .normalized⟩ items 0 = .ok n' ∧ Outcome n a b items n' ∧
      ('\x00' ∉ cs → n'.aligns = n.aligns.take a ++ sourcesAt n.aligns a cs items ++ n.aligns.drop b ∧
        NonDecreasing n'.aligns) := by
  have hfull : (⟨(a : Int), (b : Int), .normalized⟩ : Rng).full n.normalized.length =
      ⟨(a : Int), (b : Int), .normalized⟩ := by
    unfold Rng.full
    simp only [Rng.mk.injEq, and_true]
    constructor
    · rw [if_neg (by omega)]
    · rw [if_neg (by omega)]
  have hla := hw.lenA
  have hlen : blen cs = b - a := by
    rw [← length_encStr, ← hcs, List.length_drop, List.length_take]
    omega
  obtain ⟨st, hst⟩ := changeLoop_ok hw.within items
    (st := { refs := n.refs, cells := n.cells, rest := cs, offset := 0 + a, oShift := -((0 : Nat) : Int), als := [], out := [] })
    hw.lenO huse (by have := blen_take_drop cs (usesAll items); simp only; omega)
  obtain ⟨c1, c2, c3, c4⟩ := changeLoop_eq _ hst
  obtain ⟨tl, htl, htl2⟩ := shiftTail_ok hw.within hw.mono (ess := (b : Int)) (oShift := st.oShift)
    (by omega) (by omega) (refs := st.refs) (by rw [c4]; exact hw.lenO) st.cells
  have heq : ∃ n', n.transformRange ⟨a, b, .normalized⟩ items 0 = .ok n' ∧
      n'.aligns = n.aligns.take a ++ st.als ++ n.aligns.drop b := by
    unfold NStr.transformRange
    simp only [hfull, Res.bind_ok]
    rw [if_neg (by omega), slc_ok (by omega) (by omega) (by omega)]
    simp only [Res.bind_ok, Int.toNat_natCast, hcs, runes_encStr, List.take_zero, clearChars, blen_nil,
      Nat.not_lt_zero, gt_iff_lt, if_false]
    rw [hst]
    simp only [Res.bind_ok]
    rw [htl]
    simp only [Res.bind_ok]
    rw [slc_ok (by omega) (by omega) (by omega), slc_ok (by omega) (by omega) (by omega)]
    simp only [Res.bind_ok]
    rw [slc_ok (by omega) (by omega) (by omega), slc_ok (by omega) (by omega) (by omega)]
    simp only [Res.bind_ok]
    refine ⟨_, rfl, ?_⟩
    simp
  obtain ⟨n', hn', hal⟩ := heq
  refine ⟨n', hn', transformRange_outcome hw hn' hb, fun hnul => ?_⟩
  have hex := changeLoop_exact items hst huse hnul (by simp only; omega)
  have hmono := changeLoop_mono hw.within hw.mono items hst huse hnul List.Pairwise.nil
    (by simp) (by simp) (by simp) (by simp)
  have hlow := changeLoop_low hw.mono items hst huse
  have hhigh := changeLoop_high hw.within hw.mono items hst huse hnul (by simp)
  have hoff := (changeLoop_offset items hst huse).2
  simp only [List.nil_append, Nat.zero_add] at hex
  refine ⟨by rw [hal, hex], ?_⟩
  rw [hal]
  have getIn : ∀ {q : Int × Int} {k : Nat}, q ∈ n.aligns.take k → ∃ (j : Nat) (hj : j < n.aligns.length), j < k ∧ n.aligns[j] = q := by
    intro q k hq
    obtain ⟨j, hj, e⟩ := List.mem_iff_getElem.mp hq
    rw [List.getElem_take] at e
    simp only [List.length_take] at hj
    exact ⟨j, by omega, by omega, e⟩
  have getOut : ∀ {q : Int × Int} {k : Nat}, q ∈ n.aligns.drop k → ∃ (j : Nat) (hj : j < n.aligns.length), k ≤ j ∧ n.aligns[j] = q := by
    intro q k hq
    obtain ⟨j, hj, e⟩ := List.mem_iff_getElem.mp hq
    rw [List.getElem_drop] at e
    simp only [List.length_drop] at hj
    exact ⟨k + j, by omega, by omega, e⟩
  refine List.pairwise_append.mpr ⟨List.pairwise_append.mpr
    ⟨hw.mono.sublist (List.take_sublist _ _), hmono, ?_⟩, hw.mono.sublist (List.drop_sublist _ _), ?_⟩
  · intro q hq p hp
    obtain ⟨j, hj, hja, rfl⟩ := getIn hq
    rcases hlow p hp with h | h
    · cases h
    · exact h j hj (by simp only; omega)
  · intro p hp q hq
    obtain ⟨j, hj, hja, rfl⟩ := getOut hq
    rcases List.mem_append.mp hp with hp | hp
    · obtain ⟨i, hi, hia, rfl⟩ := getIn hp
      exact nd_get hw.mono (by omega) hj
    · exact hhigh p hp j hj (by simp only at hoff; omega)

theorem Outcome.wf {n n' : NStr} {a b : Nat} {items : List (Str × Int)} (h : Outcome n a b items n')
    (hm : NonDecreasing n'.aligns) : WF n' := ⟨h.lenA, h.lenO, h.within, hm⟩

end Tok.Norm
