import Verif.Bpe.Lemmas

/-! # One merge -/

namespace Tok

/-- The queue entry for a pair, if it is in the table. -/
def entryFor (merges : MergeTable) (pos : Nat) (a b : Int) : List MergeE :=
  match merges a b with
  | some m => [⟨pos, m.rank, m.newId⟩]
  | none => []

/-- The entry pushed for the pair with the last index of `A`. -/
def prevEntries (merges : MergeTable) (syms : List Symbol) (newId : Int) (A : List Nat) : List MergeE :=
  match A.getLast? with
  | some p => entryFor merges p (cAt syms p) newId
  | none => []

/-- The entry pushed for the pair with the first index of `B`. -/
def nextEntries (merges : MergeTable) (syms : List Symbol) (pos : Nat) (newId : Int) :
    List Nat → List MergeE
  | k :: _ => entryFor merges pos newId (cAt syms k)
  | [] => []

/-- The entries pushed after merging at `pos` between `A` and `B`. -/
def newEntries (merges : MergeTable) (syms : List Symbol) (A : List Nat) (pos : Nat) (B : List Nat)
    (newId : Int) : List MergeE :=
  prevEntries merges syms newId A ++ nextEntries merges syms pos newId B

theorem length_entryFor (merges : MergeTable) (pos : Nat) (a b : Int) :
    (entryFor merges pos a b).length ≤ 1 := by
  unfold entryFor; split <;> simp

theorem length_newEntries (merges : MergeTable) (syms : List Symbol) (A : List Nat) (pos : Nat)
    (B : List Nat) (newId : Int) : (newEntries merges syms A pos B newId).length ≤ 2 := by
  unfold newEntries
  rw [List.length_append]
  have h1 : (prevEntries merges syms newId A).length ≤ 1 := by
    unfold prevEntries
    split
    · exact length_entryFor _ _ _ _
    · simp
  have h2 : (nextEntries merges syms pos newId B).length ≤ 1 := by
    unfold nextEntries
    split
    · exact length_entryFor _ _ _ _
    · simp
  omega

theorem cAt_eq {syms : List Symbol} {i : Nat} {s : Symbol} (h : syms[i]? = some s) :
    cAt syms i = s.c := by simp [cAt, h]
theorem lenAt_eq {syms : List Symbol} {i : Nat} {s : Symbol} (h : syms[i]? = some s) :
    lenAt syms i = s.len := by simp [lenAt, h]

theorem mergeAt_spec (H : Heap) (merges : MergeTable) {syms : List Symbol} {L : List Nat}
    {q : List MergeE} {top : MergeE} (h : WordInv syms L) (hpos : top.pos < syms.length)
    (hok : H.Ok q) :
    (mergeAt H merges syms q top = .ok (syms, q) ∧
      ∀ A j B m, L = A ++ top.pos :: j :: B →
        merges (cAt syms top.pos) (cAt syms j) = some m → m.newId ≠ top.newId) ∨
    (∃ A j B m syms' q', L = A ++ top.pos :: j :: B ∧
      merges (cAt syms top.pos) (cAt syms j) = some m ∧ m.newId = top.newId ∧
      mergeAt H merges syms q top = .ok (syms', q') ∧
      WordInv syms' (A ++ top.pos :: B) ∧ syms'.length = syms.length ∧
      (∀ x ∈ A ++ B, cAt syms' x = cAt syms x ∧ lenAt syms' x = lenAt syms x) ∧
      cAt syms' top.pos = top.newId ∧
      lenAt syms' top.pos = lenAt syms top.pos + lenAt syms j ∧
      H.Ok q' ∧ q'.Perm (newEntries merges syms A top.pos B top.newId ++ q)) := by
  have hs := List.getElem?_eq_getElem hpos
  generalize syms[top.pos] = s at hs
  by_cases hlen : s.len = 0
  · left
    refine ⟨by simp [mergeAt, hs, hlen], ?_⟩
    intro A j B m hL
    have := (h.live _ _ hs).2 (by rw [hL]; simp)
    omega
  have hmem : top.pos ∈ L := (h.live _ _ hs).1 (by omega)
  obtain ⟨A, R, hL⟩ := List.append_of_mem hmem
  have hseg := h.linked
  rw [hL, Seg.append] at hseg
  obtain ⟨hsA, hnode, hsR⟩ := hseg
  obtain ⟨s', hs', _, hprev, hnext⟩ := hnode
  rw [hs] at hs'
  cases hs'
  have hnd : L.Nodup := h.sorted.imp fun hlt => Nat.ne_of_lt hlt
  cases R with
  | nil =>
    left
    simp only [headD] at hnext
    refine ⟨by simp [mergeAt, hs, hlen, hnext], ?_⟩
    intro A' j B m hL' _
    rw [hL] at hL'
    exfalso
    -- the last element of L is top.pos, and it occurs only once
    rw [hL] at hnd
    have h1 : (A ++ [top.pos]).getLast? = some top.pos := by simp
    rw [hL'] at h1 hnd
    have h2 : (A' ++ top.pos :: j :: B).getLast? = (j :: B).getLast? := by
      rw [List.getLast?_append, List.getLast?_cons_cons]
      cases hl : (j :: B).getLast? with
      | none => simp at hl
      | some x => rfl
    rw [h2] at h1
    have h3 : top.pos ∈ j :: B := List.mem_of_getLast? h1
    rw [List.nodup_append] at hnd
    exact (List.nodup_cons.1 hnd.2.1).1 h3
  | cons j B =>
    simp only [headD] at hnext
    obtain ⟨⟨r, hr, hrlen, hrprev, hrnext⟩, hsB⟩ := hsR
    have hjlt : j < syms.length := by
      rcases Nat.lt_or_ge j syms.length with h' | h'
      · exact h'
      · rw [List.getElem?_eq_none h'] at hr; cases hr
    have huniq : ∀ A' j' B', L = A' ++ top.pos :: j' :: B' → j' = j := by
      intro A' j' B' hL'
      have h1 : A' = A := by
        rw [hL] at hL' hnd
        have hn1 : top.pos ∉ A := by
          intro hc
          rw [List.nodup_append] at hnd
          exact hnd.2.2 _ hc _ (by simp) rfl
        have hn2 : top.pos ∉ A' := by
          intro hc
          rw [hL', List.nodup_append] at hnd
          exact hnd.2.2 _ hc _ (by simp) rfl
        have t1 : (A ++ top.pos :: j :: B).takeWhile (· != top.pos) = A := by
          rw [List.takeWhile_append_of_pos (by
            intro a ha; simp; intro e; exact hn1 (e ▸ ha))]
          simp
        have t2 : (A' ++ top.pos :: j' :: B').takeWhile (· != top.pos) = A' := by
          rw [List.takeWhile_append_of_pos (by
            intro a ha; simp; intro e; exact hn2 (e ▸ ha))]
          simp
        rw [← t1, ← t2, hL']
      subst h1
      rw [hL] at hL'
      have := List.append_cancel_left hL'
      simp only [List.cons.injEq] at this
      exact this.2.1.symm
    have hidx : idx syms s.next = .ok r := by
      rw [hnext]; simp [idx, hr]
    have hn1 : ¬(s.next = -1) := by rw [hnext]; omega
    cases hm : merges s.c r.c with
    | none =>
      left
      refine ⟨by simp [mergeAt, hs, hlen, hn1, hidx, hm], ?_⟩
      intro A' j' B' m hL' hm'
      have := huniq _ _ _ hL'
      subst this
      rw [cAt_eq hs, cAt_eq hr, hm] at hm'
      cases hm'
    | some m =>
      by_cases hid : m.newId = top.newId
      · right
        -- the three updates
        have hi_ne_j : top.pos ≠ j := by
          intro e
          rw [hL, List.nodup_append] at hnd
          exact (List.nodup_cons.1 hnd.2.1).1 (by simp [e])
        have hiB : top.pos ∉ B := by
          intro hc
          rw [hL, List.nodup_append] at hnd
          exact (List.nodup_cons.1 hnd.2.1).1 (by simp [hc])
        have hjB : j ∉ B := by
          intro hc
          rw [hL, List.nodup_append] at hnd
          exact (List.nodup_cons.1 (List.nodup_cons.1 hnd.2.1).2).1 hc
        have hiA : top.pos ∉ A := by
          intro hc
          rw [hL, List.nodup_append] at hnd
          exact hnd.2.2 _ hc _ (by simp) rfl
        have hjA : j ∉ A := by
          intro hc
          rw [hL, List.nodup_append] at hnd
          exact hnd.2.2 _ hc j (by simp) rfl
        have hAB : ∀ x ∈ A, x ∉ B := by
          intro x hx hc
          rw [hL, List.nodup_append] at hnd
          exact hnd.2.2 _ hx x (by simp [hc]) rfl
        -- the symbols after the step, in closed form
        let syms' : List Symbol :=
          let s1 := syms.set top.pos
            { s with c := top.newId, len := s.len + r.len, next := r.next }
          let s2 := s1.modify s.next.toNat (fun t => { t with len := 0 })
          if r.next > -1 ∧ r.next < syms.length
              then s2.modify r.next.toNat (fun t => { t with prev := (top.pos : Int) })
              else s2
        have hjn : s.next.toNat = j := by rw [hnext]; simp
        have hlen' : syms'.length = syms.length := by
          simp only [syms']
          split <;> simp
        have hget : ∀ x, x ≠ top.pos → x ≠ j → (∀ k B', B = k :: B' → x ≠ k) →
            syms'[x]? = syms[x]? := by
          intro x h1 h2 h3
          have e2 : ((syms.set top.pos
              { s with c := top.newId, len := s.len + r.len, next := r.next }).modify s.next.toNat
                (fun t => { t with len := 0 }))[x]? = syms[x]? := by
            rw [hjn, List.getElem?_modify]
            simp only [Ne.symm h2, if_false, List.getElem?_set_ne (Ne.symm h1)]
            simp
          simp only [syms']
          split
          · rename_i hc
            cases B with
            | nil => rw [hrnext] at hc; simp [headD] at hc
            | cons k B' =>
              have : r.next.toNat = k := by rw [hrnext]; simp [headD]
              rw [List.getElem?_modify, this]
              have := h3 k B' rfl
              simp only [Ne.symm this, if_false]
              simpa using e2
          · exact e2
        have hk_ne : ∀ k B', B = k :: B' → k ≠ top.pos ∧ k ≠ j := by
          intro k B' hB
          subst hB
          exact ⟨fun e => hiB (by simp [e]), fun e => hjB (by simp [e])⟩
        have hgeti : syms'[top.pos]? =
            some { s with c := top.newId, len := s.len + r.len, next := r.next } := by
          have e2 : ((syms.set top.pos
              { s with c := top.newId, len := s.len + r.len, next := r.next }).modify s.next.toNat
                (fun t => { t with len := 0 }))[top.pos]? =
                some { s with c := top.newId, len := s.len + r.len, next := r.next } := by
            rw [hjn, List.getElem?_modify]
            simp only [Ne.symm hi_ne_j, if_false]
            simp [hpos]
          simp only [syms']
          split
          · rename_i hc
            cases B with
            | nil => rw [hrnext] at hc; simp [headD] at hc
            | cons k B' =>
              have : r.next.toNat = k := by rw [hrnext]; simp [headD]
              rw [List.getElem?_modify, this]
              simp only [(hk_ne k B' rfl).1, if_false]
              simpa using e2
          · exact e2
        have hgetj : ∃ t, syms'[j]? = some t ∧ t.len = 0 := by
          have e2 : ((syms.set top.pos
              { s with c := top.newId, len := s.len + r.len, next := r.next }).modify s.next.toNat
                (fun t => { t with len := 0 }))[j]? = some { r with len := 0 } := by
            rw [hjn, List.getElem?_modify]
            simp [List.getElem?_set_ne hi_ne_j, hr]
          refine ⟨{ r with len := 0 }, ?_, rfl⟩
          simp only [syms']
          split
          · rename_i hc
            cases B with
            | nil => rw [hrnext] at hc; simp [headD] at hc
            | cons k B' =>
              have : r.next.toNat = k := by rw [hrnext]; simp [headD]
              rw [List.getElem?_modify, this]
              simp only [(hk_ne k B' rfl).2, if_false]
              simpa using e2
          · exact e2
        have hgetk : ∀ k B' t, B = k :: B' → syms[k]? = some t →
            syms'[k]? = some { t with prev := (top.pos : Int) } := by
          intro k B' t hB ht
          have e2 : ((syms.set top.pos
              { s with c := top.newId, len := s.len + r.len, next := r.next }).modify s.next.toNat
                (fun t => { t with len := 0 }))[k]? = some t := by
            rw [hjn, List.getElem?_modify]
            simp only [Ne.symm (hk_ne k B' hB).2, if_false,
              List.getElem?_set_ne (Ne.symm (hk_ne k B' hB).1)]
            simpa using ht
          have hklt : k < syms.length := by
            rcases Nat.lt_or_ge k syms.length with h' | h'
            · exact h'
            · rw [List.getElem?_eq_none h'] at ht; cases ht
          have hnk : r.next = (k : Int) := by rw [hrnext, hB]; rfl
          simp only [syms']
          rw [if_pos (by rw [hnk]; omega)]
          have : r.next.toNat = k := by rw [hnk]; simp
          rw [List.getElem?_modify, this]
          simp [e2]
        have hcl : ∀ x ∈ A ++ B, cAt syms' x = cAt syms x ∧ lenAt syms' x = lenAt syms x := by
          intro x hx
          by_cases hk : ∃ k B', B = k :: B' ∧ x = k
          · obtain ⟨k, B', hB, rfl⟩ := hk
            subst hB
            obtain ⟨t, ht, _⟩ := hsB.node x (by simp)
            have := hgetk x B' t rfl ht
            exact ⟨by rw [cAt_eq this, cAt_eq ht], by rw [lenAt_eq this, lenAt_eq ht]⟩
          · have := hget x (by
              rintro rfl
              rcases List.mem_append.1 hx with hx | hx
              · exact hiA hx
              · exact hiB hx) (by
              rintro rfl
              rcases List.mem_append.1 hx with hx | hx
              · exact hjA hx
              · exact hjB hx) (by
              intro k B' hB e
              exact hk ⟨k, B', hB, e⟩)
            exact ⟨by simp [cAt, this], by simp [lenAt, this]⟩
        have hinv : WordInv syms' (A ++ top.pos :: B) := by
          refine ⟨?_, ?_, ?_⟩
          · have : (A ++ top.pos :: B).Sublist L := by
              rw [hL]
              exact List.Sublist.append (List.Sublist.refl _)
                (List.Sublist.cons_cons _ (List.Sublist.cons _ (List.Sublist.refl _)))
            exact h.sorted.sublist this
          · intro x t hx
            by_cases hxi : x = top.pos
            · subst hxi
              rw [hgeti] at hx
              cases hx
              simp; omega
            by_cases hxj : x = j
            · subst hxj
              obtain ⟨t', ht', hl⟩ := hgetj
              rw [ht'] at hx
              cases hx
              simp [hl, hjA, hjB, Ne.symm hi_ne_j]
            · have hiff : x ∈ A ++ top.pos :: B ↔ x ∈ L := by
                rw [hL]; simp [hxi, hxj]
              rw [hiff]
              by_cases hk : ∃ k B', B = k :: B' ∧ x = k
              · obtain ⟨k, B', hB, rfl⟩ := hk
                obtain ⟨t', ht', _⟩ := hsB.node x (by simp [hB])
                have := hgetk x B' t' hB ht'
                rw [this] at hx
                cases hx
                exact h.live x t' ht'
              · have := hget x hxi hxj (fun k B' hB e => hk ⟨k, B', hB, e⟩)
                rw [this] at hx
                exact h.live x t hx
          · rw [Seg.append]
            refine ⟨?_, ?_, ?_⟩
            · apply Seg.congr _ hsA
              intro x hx
              apply hget x
              · rintro rfl; exact hiA hx
              · rintro rfl; exact hjA hx
              · intro k B' hB e
                exact hAB x hx (by rw [hB, e]; simp)
            · refine ⟨_, hgeti, ?_, hprev, ?_⟩
              · simp; omega
              · simp only [hrnext]
            · cases B with
              | nil => trivial
              | cons k B' =>
                obtain ⟨⟨t, ht, htl, _, htn⟩, hsB'⟩ := hsB
                refine ⟨⟨_, hgetk k B' t rfl ht, htl, rfl, htn⟩, ?_⟩
                apply Seg.congr _ hsB'
                intro x hx
                have hkB' : k ∉ B' := by
                  intro hc
                  rw [hL, List.nodup_append] at hnd
                  have := (List.nodup_cons.1 (List.nodup_cons.1 hnd.2.1).2).2
                  exact (List.nodup_cons.1 this).1 hc
                apply hget x
                · rintro rfl; exact hiB (by simp [hx])
                · rintro rfl; exact hjB (by simp [hx])
                · intro k' B'' hB e
                  cases hB
                  exact hkB' (e ▸ hx)
        -- the pushes
        have hpp : ∃ q', pushPrev H merges syms'
            { s with c := top.newId, len := s.len + r.len, next := r.next } q = .ok q' ∧
            H.Ok q' ∧ q'.Perm (prevEntries merges syms top.newId A ++ q) := by
          unfold pushPrev prevEntries
          simp only [hprev]
          cases hA : A.getLast? with
          | none =>
            simp only [lastD, hA]
            exact ⟨q, by simp, hok, by simp⟩
          | some p =>
            have hpA : p ∈ A := List.mem_of_getLast? hA
            simp only [lastD, hA]
            have hp1 := hget p (by rintro rfl; exact hiA hpA) (by rintro rfl; exact hjA hpA)
              (by intro k B' hB e; exact hAB p hpA (by rw [hB, e]; simp))
            obtain ⟨t, ht, _⟩ := h.linked.node p (by rw [hL]; simp [hpA])
            rw [ht] at hp1
            rw [if_pos (by omega)]
            simp only [Int.toNat_natCast, hp1]
            rw [cAt_eq ht]
            unfold entryFor
            cases hme : merges t.c top.newId with
            | none => exact ⟨q, rfl, hok, by simp⟩
            | some m' => exact ⟨_, rfl, H.ok_push _ _ hok, H.push_perm _ _ hok⟩
        obtain ⟨q1, hq1, hq1ok, hq1p⟩ := hpp
        have hpn : H.Ok (pushNext H merges syms' top.pos
              { s with c := top.newId, len := s.len + r.len, next := r.next } q1) ∧
            (pushNext H merges syms' top.pos
              { s with c := top.newId, len := s.len + r.len, next := r.next } q1).Perm
            (nextEntries merges syms top.pos top.newId B ++ q1) := by
          unfold pushNext
          simp only [hrnext]
          cases B with
          | nil => simp [headD, hq1ok, nextEntries]
          | cons k B' =>
            obtain ⟨t, ht, _⟩ := hsB.node k (by simp)
            have hk1 := hgetk k B' t rfl ht
            have hklt : k < syms'.length := by
              rcases Nat.lt_or_ge k syms'.length with h' | h'
              · exact h'
              · rw [List.getElem?_eq_none h'] at hk1; cases hk1
            have hc : (k : Int) < (syms'.length : Int) ∧ (k : Int) > -1 := by omega
            simp only [headD, hc, and_self, if_true]
            simp only [Int.toNat_natCast, hk1]
            simp only [nextEntries]
            rw [cAt_eq ht]
            unfold entryFor
            cases hme : merges top.newId t.c with
            | none => simp [hq1ok]
            | some m' => exact ⟨H.ok_push _ _ hq1ok, H.push_perm _ _ hq1ok⟩
        refine ⟨A, j, B, m, syms', _, hL, by rw [cAt_eq hs, cAt_eq hr, hm], hid, ?_, hinv, hlen', hcl,
          by rw [cAt_eq hgeti], by rw [lenAt_eq hgeti, lenAt_eq hs, lenAt_eq hr], hpn.1, ?_⟩
        · unfold mergeAt
          simp only [hs, hlen, hn1, hidx, hm, hid, ne_eq, not_true_eq_false, if_false]
          have hs3 : (if r.next > -1 ∧ r.next < (syms.length : Int) then
              ((syms.set top.pos { s with c := top.newId, len := s.len + r.len, next := r.next }).modify
                s.next.toNat (fun t => { t with len := 0 })).modify r.next.toNat
                  (fun t => { t with prev := (top.pos : Int) })
              else (syms.set top.pos { s with c := top.newId, len := s.len + r.len, next := r.next }).modify
                s.next.toNat (fun t => { t with len := 0 })) = syms' := rfl
          rw [hs3]
          simp only [hgeti, hq1]
        · refine hpn.2.trans ?_
          unfold newEntries
          refine (List.Perm.append_left _ hq1p).trans ?_
          rw [← List.append_assoc]
          exact List.Perm.append_right _ List.perm_append_comm
      · left
        refine ⟨by simp [mergeAt, hs, hlen, hn1, hidx, hm, hid], ?_⟩
        intro A' j' B' m' hL' hm'
        have := huniq _ _ _ hL'
        subst this
        rw [cAt_eq hs, cAt_eq hr, hm] at hm'
        cases hm'
        exact hid

end Tok
