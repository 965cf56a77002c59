import Verif.Bpe.Step
import Verif.Concurrency.Star
import Verif.Bpe.Spec

/-! # The merging loop -/

namespace Tok

/-- `x` is directly followed by `y` in `L`. -/
def Adj (L : List α) (x y : α) : Prop := ∃ A B, L = A ++ x :: y :: B

theorem Adj.append_left {A C : List α} {x y : α} (h : Adj A x y) : Adj (A ++ C) x y := by
  obtain ⟨u, v, rfl⟩ := h
  exact ⟨u, v ++ C, by simp⟩

theorem Adj.append_right {A C : List α} {x y : α} (h : Adj C x y) : Adj (A ++ C) x y := by
  obtain ⟨u, v, rfl⟩ := h
  exact ⟨A ++ u, v, by simp⟩

theorem Adj.of_last_head {A C : List α} {x y : α} (h : A.getLast? = some x) (h' : C.head? = some y) :
    Adj (A ++ C) x y := by
  obtain ⟨u, rfl⟩ := List.getLast?_eq_some_iff.1 h
  cases C with
  | nil => cases h'
  | cons c C => simp at h'; subst h'; exact ⟨u, C, by simp⟩

theorem Adj.split {A C : List α} {x y : α} (h : Adj (A ++ C) x y) :
    Adj A x y ∨ (A.getLast? = some x ∧ C.head? = some y) ∨ Adj C x y := by
  obtain ⟨u, v, h⟩ := h
  rcases List.append_eq_append_iff.1 h with ⟨as, h1, h2⟩ | ⟨bs, h1, h2⟩
  · exact Or.inr (Or.inr ⟨as, v, h2⟩)
  · match bs, h1, h2 with
    | [], h1, h2 =>
      simp at h2
      exact Or.inr (Or.inr ⟨[], v, by rw [← h2]; rfl⟩)
    | [b], h1, h2 =>
      simp at h2
      obtain ⟨rfl, h2⟩ := h2
      exact Or.inr (Or.inl ⟨by rw [h1]; simp, by rw [← h2]; rfl⟩)
    | b :: b' :: t, h1, h2 =>
      simp at h2
      obtain ⟨rfl, rfl, h2⟩ := h2
      exact Or.inl ⟨u, t, h1⟩

theorem Adj.cons_split {C : List α} {i x y : α} (h : Adj (i :: C) x y) :
    (x = i ∧ C.head? = some y) ∨ Adj C x y := by
  have : Adj ([i] ++ C) x y := h
  rcases this.split with h | h | h
  · obtain ⟨u, v, h⟩ := h
    have := congrArg List.length h
    simp at this
    omega
  · exact Or.inl ⟨by simpa [eq_comm] using h.1, h.2⟩
  · exact Or.inr h

/-- Adjacent pairs after a merge. -/
theorem Adj.after_merge {A B : List α} {i j x y : α} (h : Adj (A ++ i :: B) x y) :
    (Adj (A ++ i :: j :: B) x y ∧ x ∈ A ∧ y ∈ A) ∨ (A.getLast? = some x ∧ y = i) ∨
    (x = i ∧ B.head? = some y) ∨ (Adj (A ++ i :: j :: B) x y ∧ x ∈ B ∧ y ∈ B) := by
  rcases h.split with h | h | h
  · left
    refine ⟨h.append_left, ?_, ?_⟩ <;> (obtain ⟨u, v, rfl⟩ := h; simp)
  · right; left
    exact ⟨h.1, by simpa [eq_comm] using h.2⟩
  · rcases h.cons_split with h | h
    · right; right; left; exact h
    · right; right; right
      refine ⟨?_, ?_, ?_⟩
      · have : Adj ((A ++ [i, j]) ++ B) x y := h.append_right
        simpa using this
      all_goals (obtain ⟨u, v, rfl⟩ := h; simp)

theorem Adj.mem {L : List α} {x y : α} (h : Adj L x y) : x ∈ L ∧ y ∈ L := by
  obtain ⟨u, v, rfl⟩ := h
  simp

theorem foldl_push (H : Heap) (skip : List MergeE) : ∀ q, H.Ok q →
    H.Ok (skip.foldl H.push q) ∧ (skip.foldl H.push q).Perm (skip ++ q) := by
  induction skip with
  | nil => intro q h; exact ⟨h, List.Perm.refl _⟩
  | cons e skip ih =>
    intro q h
    obtain ⟨h1, h2⟩ := ih (H.push q e) (H.ok_push _ _ h)
    refine ⟨h1, h2.trans ?_⟩
    refine (List.Perm.append_left _ (H.push_perm _ _ h)).trans ?_
    simp

theorem newEntries_pos {merges : MergeTable} {syms : List Symbol} {A B : List Nat} {i : Nat}
    {c : Int} {e : MergeE} (h : e ∈ newEntries merges syms A i B c) :
    (∃ p m, A.getLast? = some p ∧ merges (cAt syms p) c = some m ∧ e = ⟨p, m.rank, m.newId⟩) ∨
    (∃ k m, B.head? = some k ∧ merges c (cAt syms k) = some m ∧ e = ⟨i, m.rank, m.newId⟩) := by
  unfold newEntries at h
  rcases List.mem_append.1 h with h | h
  · left
    unfold prevEntries at h
    split at h
    · rename_i p hp
      unfold entryFor at h
      split at h
      · rename_i m hm
        exact ⟨p, m, hp, hm, by simpa using h⟩
      · cases h
    · cases h
  · right
    cases B with
    | nil => cases h
    | cons k B =>
      simp only [nextEntries, entryFor] at h
      split at h
      · rename_i m hm
        exact ⟨k, m, rfl, hm, by simpa using h⟩
      · cases h

theorem content_step {syms syms' : List Symbol} {A B : List Nat} {i j : Nat} {c : Int}
    (hcl : ∀ x ∈ A ++ B, cAt syms' x = cAt syms x ∧ lenAt syms' x = lenAt syms x)
    (hc : cAt syms' i = c) (hl : lenAt syms' i = lenAt syms i + lenAt syms j) :
    content syms (A ++ i :: j :: B) = content syms A ++
        (cAt syms i, lenAt syms i) :: (cAt syms j, lenAt syms j) :: content syms B ∧
    content syms' (A ++ i :: B) = content syms A ++
        (c, lenAt syms i + lenAt syms j) :: content syms B := by
  constructor
  · simp [content]
  · have h1 : content syms' A = content syms A := by
      apply List.map_congr_left
      intro x hx
      have := hcl x (by simp [hx])
      rw [this.1, this.2]
    have h2 : content syms' B = content syms B := by
      apply List.map_congr_left
      intro x hx
      have := hcl x (by simp [hx])
      rw [this.1, this.2]
    unfold content at *
    rw [List.map_append, List.map_cons, h1, h2, hc, hl]

/-- Every position in the queue is an index of the word. -/
def PosOk (syms : List Symbol) (q : List MergeE) : Prop := ∀ e ∈ q, e.pos < syms.length

theorem lt_of_mem {syms : List Symbol} {L : List Nat} (h : WordInv syms L) {x : Nat} (hx : x ∈ L) :
    x < syms.length := by
  obtain ⟨s, h1, _⟩ := h.linked.node x hx
  rcases Nat.lt_or_ge x syms.length with h' | h'
  · exact h'
  · rw [List.getElem?_eq_none h'] at h1; cases h1

theorem PosOk.step {merges : MergeTable} {syms syms' : List Symbol} {A B : List Nat} {i j : Nat}
    {c : Int} {q q' : List MergeE} (h : WordInv syms (A ++ i :: j :: B))
    (hl : syms'.length = syms.length) (hq : PosOk syms q)
    (hp : q'.Perm (newEntries merges syms A i B c ++ q)) : PosOk syms' q' := by
  intro e he
  rw [hl]
  rcases List.mem_append.1 (hp.mem_iff.1 he) with he | he
  · rcases newEntries_pos he with ⟨p, m, hp, _, rfl⟩ | ⟨k, m, _, _, rfl⟩
    · exact lt_of_mem h (by simp [List.mem_of_getLast? hp])
    · exact lt_of_mem h (by simp)
  · exact hq e he

/-- The loop does not panic, and what it returns comes from table merges. -/
theorem mergeLoop_inv (H : Heap) (merges : MergeTable) (drop : Nat → Bool) :
    ∀ (fuel n : Nat) (syms : List Symbol) (q skip : List MergeE) (L : List Nat),
      WordInv syms L → H.Ok q → PosOk syms q → PosOk syms skip →
      mergeLoop H merges drop fuel n syms q skip = .ok none ∨
      ∃ r L', mergeLoop H merges drop fuel n syms q skip = .ok (some r) ∧ WordInv r L' ∧
        Star (TableMerge merges) (content syms L) (content r L') := by
  intro fuel
  induction fuel with
  | zero => intro n syms q skip L _ _ _ _; left; rfl
  | succ fuel ih =>
    intro n syms q skip L hinv hok hq hskip
    unfold mergeLoop
    cases hpop : H.pop q with
    | none => right; exact ⟨syms, L, rfl, hinv, .refl⟩
    | some p =>
      obtain ⟨top, q1⟩ := p
      have hok1 := H.ok_pop _ _ _ hok hpop
      have hperm := H.pop_perm _ _ _ hok hpop
      have htop : top.pos < syms.length := hq top (hperm.mem_iff.2 (by simp))
      have hq1 : PosOk syms q1 := fun e he => hq e (hperm.mem_iff.2 (by simp [he]))
      simp only
      split
      · apply ih _ _ _ _ L hinv hok1 hq1
        intro e he
        rcases List.mem_append.1 he with he | he
        · exact hskip e he
        · simp at he; subst he; exact htop
      · obtain ⟨hok2, hp2⟩ := foldl_push H skip q1 hok1
        have hq2 : PosOk syms (skip.foldl H.push q1) := by
          intro e he
          rcases List.mem_append.1 (hp2.mem_iff.1 he) with he | he
          · exact hskip e he
          · exact hq1 e he
        rcases mergeAt_spec H merges hinv htop hok2 with ⟨he, _⟩ | ⟨A, j, B, m, syms', q', hL, hm, hid,
          he, hinv', hlen, hcl, hc, hl, hok', hp'⟩
        · rw [he]
          exact ih _ _ _ _ L hinv hok2 hq2 hskip
        · rw [he]
          simp only
          subst hL
          rcases ih (n + 1) syms' q' skip _ hinv' hok' (hq2.step hinv hlen hp')
            (fun e he => by rw [hlen]; exact hskip e he) with h | ⟨r, L', h1, h2, h3⟩
          · left; exact h
          · right
            refine ⟨r, L', h1, h2, ?_⟩
            obtain ⟨e1, e2⟩ := content_step hcl hc hl
            rw [e2] at h3
            rw [e1]
            refine Star.trans (Star.single ?_) h3
            rw [← hid]
            exact .mk _ _ _ _ _ _ m hm

/-- Every adjacent pair of the table has its entry in the queue. -/
def Complete (merges : MergeTable) (syms : List Symbol) (L : List Nat) (q : List MergeE) : Prop :=
  ∀ i j m, Adj L i j → merges (cAt syms i) (cAt syms j) = some m → ⟨i, m.rank, m.newId⟩ ∈ q

theorem mem_newEntries_prev {merges : MergeTable} {syms : List Symbol} {A B : List Nat} {i p : Nat}
    {c : Int} {m : PairVal} (hA : A.getLast? = some p) (hm : merges (cAt syms p) c = some m) :
    ⟨p, m.rank, m.newId⟩ ∈ newEntries merges syms A i B c := by
  unfold newEntries prevEntries entryFor
  rw [hA]
  simp [hm]

theorem mem_newEntries_next {merges : MergeTable} {syms : List Symbol} {A B : List Nat} {i k : Nat}
    {c : Int} {m : PairVal} (hB : B.head? = some k) (hm : merges c (cAt syms k) = some m) :
    ⟨i, m.rank, m.newId⟩ ∈ newEntries merges syms A i B c := by
  cases B with
  | nil => cases hB
  | cons b B =>
    simp at hB; subst hB
    unfold newEntries nextEntries entryFor
    simp [hm]

theorem sorted_parts {A B : List Nat} {i j : Nat} (h : (A ++ i :: j :: B).Pairwise (· < ·)) :
    (∀ x ∈ A, x ≠ i ∧ x ≠ j) ∧ (∀ x ∈ B, x ≠ i ∧ x ≠ j) ∧ i ≠ j := by
  rw [List.pairwise_append, List.pairwise_cons, List.pairwise_cons] at h
  refine ⟨fun x hx => ?_, fun x hx => ?_, ?_⟩
  · have h1 := h.2.2 x hx i (by simp)
    have h2 := h.2.2 x hx j (by simp)
    omega
  · have h1 := h.2.1.1 x (by simp [hx])
    have h2 := h.2.1.2.1 x hx
    omega
  · have h1 := h.2.1.1 j (by simp)
    omega

theorem Complete.merge {merges : MergeTable} {syms syms' : List Symbol} {A B : List Nat} {i j : Nat}
    {top : MergeE} {q q' : List MergeE} (hi : top.pos = i)
    (hs : (A ++ i :: j :: B).Pairwise (· < ·))
    (hcl : ∀ x ∈ A ++ B, cAt syms' x = cAt syms x ∧ lenAt syms' x = lenAt syms x)
    (hc : cAt syms' i = top.newId)
    (hq : Complete merges syms (A ++ i :: j :: B) (top :: q))
    (hp : q'.Perm (newEntries merges syms A i B top.newId ++ q)) :
    Complete merges syms' (A ++ i :: B) q' := by
  obtain ⟨hA, hB, _⟩ := sorted_parts hs
  intro x y m hadj hm
  rw [hp.mem_iff]
  rcases hadj.after_merge (j := j) with ⟨h1, h2, h3⟩ | ⟨h1, rfl⟩ | ⟨rfl, h1⟩ | ⟨h1, h2, h3⟩
  · rw [(hcl x (by simp [h2])).1, (hcl y (by simp [h3])).1] at hm
    have := hq x y m h1 hm
    rcases List.mem_cons.1 this with e | h
    · exact absurd (by rw [← hi, ← e]) (hA x h2).1
    · exact List.mem_append.2 (Or.inr h)
  · have hx := List.mem_of_getLast? h1
    rw [(hcl x (by simp [hx])).1, hc] at hm
    exact List.mem_append.2 (Or.inl (mem_newEntries_prev h1 hm))
  · have hy : y ∈ B := List.mem_of_mem_head? (by rw [h1]; rfl)
    rw [(hcl y (by simp [hy])).1, hc] at hm
    exact List.mem_append.2 (Or.inl (mem_newEntries_next h1 hm))
  · rw [(hcl x (by simp [h2])).1, (hcl y (by simp [h3])).1] at hm
    have := hq x y m h1 hm
    rcases List.mem_cons.1 this with e | h
    · exact absurd (by rw [← hi, ← e]) (hB x h2).1
    · exact List.mem_append.2 (Or.inr h)

theorem Complete.stale {merges : MergeTable} {syms : List Symbol} {L : List Nat} {top : MergeE}
    {q : List MergeE} (hq : Complete merges syms L (top :: q))
    (hst : ∀ A j B m, L = A ++ top.pos :: j :: B →
        merges (cAt syms top.pos) (cAt syms j) = some m → m.newId ≠ top.newId) :
    Complete merges syms L q := by
  intro i j m hadj hm
  rcases List.mem_cons.1 (hq i j m hadj hm) with e | h
  · exfalso
    obtain ⟨A, B, hL⟩ := hadj
    subst e
    exact hst A j B m hL hm rfl
  · exact h

/-- Without dropout the loop ends, and then no adjacent pair is in the table. -/
theorem mergeLoop_nodrop (H : Heap) (merges : MergeTable) :
    ∀ (fuel n : Nat) (syms : List Symbol) (q : List MergeE) (L : List Nat),
      WordInv syms L → H.Ok q → PosOk syms q → Complete merges syms L q →
      2 * L.length + q.length < fuel →
      ∃ r L', mergeLoop H merges (fun _ => false) fuel n syms q [] = .ok (some r) ∧ WordInv r L' ∧
        Complete merges r L' [] := by
  intro fuel
  induction fuel with
  | zero => intro n syms q L _ _ _ _ h; omega
  | succ fuel ih =>
    intro n syms q L hinv hok hq hcomp hfuel
    unfold mergeLoop
    cases hpop : H.pop q with
    | none =>
      have : q = [] := (H.pop_none q hok).1 hpop
      subst this
      exact ⟨syms, L, rfl, hinv, hcomp⟩
    | some p =>
      obtain ⟨top, q1⟩ := p
      have hok1 := H.ok_pop _ _ _ hok hpop
      have hperm := H.pop_perm _ _ _ hok hpop
      have hlenq := hperm.length_eq
      simp only [List.length_cons] at hlenq
      have htop : top.pos < syms.length := hq top (hperm.mem_iff.2 (by simp))
      have hq1 : PosOk syms q1 := fun e he => hq e (hperm.mem_iff.2 (by simp [he]))
      have hcomp' : Complete merges syms L (top :: q1) :=
        fun i j m h1 h2 => hperm.mem_iff.1 (hcomp i j m h1 h2)
      simp only [Bool.false_eq_true, if_false, List.foldl_nil]
      rcases mergeAt_spec H merges hinv htop hok1 with ⟨he, hst⟩ | ⟨A, j, B, m, syms', q', hL, hm, hid,
          he, hinv', hlen, hcl, hc, hl, hok', hp'⟩
      · rw [he]
        exact ih _ _ _ L hinv hok1 hq1 (hcomp'.stale hst) (by show 2 * L.length + q1.length < fuel; omega)
      · rw [he]
        simp only
        subst hL
        have h1 := hp'.length_eq
        have h2 := length_newEntries merges syms A top.pos B top.newId
        simp only [List.length_append, List.length_cons] at h1 hfuel
        exact ih _ syms' q' _ hinv' hok' (hq1.step hinv hlen hp')
          (Complete.merge rfl hinv.sorted hcl hc hcomp' hp')
          (by simp only [List.length_append, List.length_cons]; omega)

/-- More fuel changes nothing once the loop has ended. -/
theorem mergeLoop_fuel (H : Heap) (merges : MergeTable) (drop : Nat → Bool) :
    ∀ (fuel n : Nat) (syms : List Symbol) (q skip : List MergeE) (r : List Symbol) (k : Nat),
      mergeLoop H merges drop fuel n syms q skip = .ok (some r) →
      mergeLoop H merges drop (fuel + k) n syms q skip = .ok (some r) := by
  intro fuel
  induction fuel with
  | zero => intro n syms q skip r k h; cases h
  | succ fuel ih =>
    intro n syms q skip r k h
    rw [show fuel + 1 + k = (fuel + k) + 1 by omega]
    unfold mergeLoop at h ⊢
    cases hpop : H.pop q with
    | none => rw [hpop] at h; exact h
    | some p =>
      rw [hpop] at h
      simp only at h ⊢
      split
      · rename_i hd
        rw [if_pos hd] at h
        exact ih _ _ _ _ _ _ h
      · rename_i hd
        rw [if_neg hd] at h
        cases hma : mergeAt H merges syms (skip.foldl H.push p.2) p.1 with
        | ok x => rw [hma] at h; exact ih _ _ _ _ _ _ h
        | err => rw [hma] at h; cases h
        | panic => rw [hma] at h; cases h

/-! ### The initial queue -/

theorem loadQueue_spec (H : Heap) (merges : MergeTable) : ∀ (ss : List Symbol) (i : Nat)
    (q : List MergeE), H.Ok q →
    H.Ok (loadQueue H merges i ss q) ∧
    (loadQueue H merges i ss q).length ≤ q.length + (ss.length - 1) ∧
    ∀ e, e ∈ loadQueue H merges i ss q ↔ e ∈ q ∨ ∃ k a b m, ss[k]? = some a ∧
      ss[k + 1]? = some b ∧ merges a.c b.c = some m ∧ e = ⟨i + k, m.rank, m.newId⟩ := by
  intro ss
  induction ss with
  | nil => intro i q h; exact ⟨h, by simp [loadQueue], by simp [loadQueue]⟩
  | cons a ss ih =>
    cases ss with
    | nil => intro i q h; exact ⟨h, by simp [loadQueue], by simp [loadQueue]⟩
    | cons b ss =>
      intro i q h
      unfold loadQueue
      have key : ∀ q1, H.Ok q1 → q1.length ≤ q.length + 1 →
          (∀ e, e ∈ q1 ↔ e ∈ q ∨ ∃ m, merges a.c b.c = some m ∧ e = ⟨i, m.rank, m.newId⟩) →
          H.Ok (loadQueue H merges (i + 1) (b :: ss) q1) ∧
          (loadQueue H merges (i + 1) (b :: ss) q1).length ≤ q.length + ((a :: b :: ss).length - 1) ∧
          ∀ e, e ∈ loadQueue H merges (i + 1) (b :: ss) q1 ↔ e ∈ q ∨ ∃ k x y m,
            (a :: b :: ss)[k]? = some x ∧ (a :: b :: ss)[k + 1]? = some y ∧
            merges x.c y.c = some m ∧ e = ⟨i + k, m.rank, m.newId⟩ := by
        intro q1 h1 h2 h3
        obtain ⟨i1, i2, i3⟩ := ih (i + 1) q1 h1
        refine ⟨i1, by simp only [List.length_cons] at i2 ⊢; omega, ?_⟩
        intro e
        rw [i3, h3]
        constructor
        · rintro ((h | ⟨m, hm, rfl⟩) | ⟨k, x, y, m, h1, h2, h3, rfl⟩)
          · exact Or.inl h
          · exact Or.inr ⟨0, a, b, m, rfl, rfl, hm, rfl⟩
          · exact Or.inr ⟨k + 1, x, y, m, h1, h2, h3, by simp; omega⟩
        · rintro (h | ⟨k, x, y, m, h1, h2, h3, rfl⟩)
          · exact Or.inl (Or.inl h)
          · cases k with
            | zero =>
              simp at h1 h2
              subst h1; subst h2
              exact Or.inl (Or.inr ⟨m, h3, rfl⟩)
            | succ k => exact Or.inr ⟨k, x, y, m, h1, h2, h3, by simp; omega⟩
      cases hm : merges a.c b.c with
      | none =>
        apply key q h (by omega)
        intro e
        simp [hm]
      | some m =>
        have hp := H.push_perm q ⟨i, m.rank, m.newId⟩ h
        apply key _ (H.ok_push _ _ h) (by rw [hp.length_eq]; simp)
        intro e
        rw [hp.mem_iff, List.mem_cons]
        constructor
        · rintro (h | h)
          · exact Or.inr ⟨m, hm, h⟩
          · exact Or.inl h
        · rintro (h | ⟨m', hm', h⟩)
          · exact Or.inr h
          · rw [hm] at hm'; cases hm'; exact Or.inl h

theorem adj_range {n i j : Nat} (h : Adj (List.range n) i j) : j = i + 1 ∧ j < n := by
  obtain ⟨A, B, h⟩ := h
  have h1 : (List.range n)[A.length]? = some i := by rw [h]; simp
  have h2 : (List.range n)[A.length + 1]? = some j := by
    rw [h, List.getElem?_append_right (by omega)]; simp
  have l2 : A.length + 1 < n := by
    rcases Nat.lt_or_ge (A.length + 1) n with h' | h'
    · exact h'
    · rw [List.getElem?_eq_none (by simpa using h')] at h2; cases h2
  rw [List.getElem?_range (by omega)] at h1 h2
  simp at h1 h2
  omega

theorem loadQueue_complete (H : Heap) (merges : MergeTable) (ss : List Symbol) :
    Complete merges ss (List.range ss.length) (loadQueue H merges 0 ss []) ∧
    PosOk ss (loadQueue H merges 0 ss []) := by
  obtain ⟨_, _, h⟩ := loadQueue_spec H merges ss 0 [] H.ok_nil
  constructor
  · intro i j m hadj hm
    obtain ⟨rfl, hlt⟩ := adj_range hadj
    rw [h]
    right
    have h1 := List.getElem?_eq_getElem (l := ss) (i := i) (by omega)
    have h2 := List.getElem?_eq_getElem (l := ss) (i := i + 1) hlt
    refine ⟨i, _, _, m, h1, h2, ?_, by simp⟩
    rw [cAt_eq h1, cAt_eq h2] at hm
    exact hm
  · intro e he
    rcases (h e).1 he with he | ⟨k, a, b, m, h1, _, _, rfl⟩
    · cases he
    · simp only [Nat.zero_add]
      rcases Nat.lt_or_ge k ss.length with h' | h'
      · exact h'
      · rw [List.getElem?_eq_none h'] at h1; cases h1

end Tok
