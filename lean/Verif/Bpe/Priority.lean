import Verif.Bpe.Loop

/-! # Merge order -/

namespace Tok

/-- Merged symbols are as large as their parts together, for some notion of size. This is so
when the id of a merge is that of the concatenated text. -/
def Additive (merges : MergeTable) (size : Int → Nat) : Prop :=
  (∀ a, 0 < size a) ∧ ∀ a b m, merges a b = some m → size m.newId = size a + size b

/-- A queue entry is either that of the pair now at its position, or too small for it. -/
def QueueFresh (merges : MergeTable) (size : Int → Nat) (syms : List Symbol) (L : List Nat)
    (q : List MergeE) : Prop :=
  ∀ e ∈ q, ∀ j, Adj L e.pos j →
    size e.newId < size (cAt syms e.pos) + size (cAt syms j) ∨
    merges (cAt syms e.pos) (cAt syms j) = some ⟨e.rank, e.newId⟩

theorem QueueFresh.le {merges : MergeTable} {size : Int → Nat} (ha : Additive merges size)
    {syms : List Symbol} {L : List Nat} {q : List MergeE} (h : QueueFresh merges size syms L q)
    {e : MergeE} (he : e ∈ q) {j : Nat} (hj : Adj L e.pos j) :
    size e.newId ≤ size (cAt syms e.pos) + size (cAt syms j) := by
  rcases h e he j hj with h | h
  · omega
  · have := ha.2 _ _ _ h
    simp only at this
    omega

theorem QueueFresh.merge {merges : MergeTable} {size : Int → Nat} (ha : Additive merges size)
    {syms syms' : List Symbol} {A B : List Nat} {i j : Nat} {top : MergeE} {q q' : List MergeE}
    {m : PairVal} (hm : merges (cAt syms i) (cAt syms j) = some m) (hid : m.newId = top.newId)
    (hs : (A ++ i :: j :: B).Pairwise (· < ·))
    (hcl : ∀ x ∈ A ++ B, cAt syms' x = cAt syms x ∧ lenAt syms' x = lenAt syms x)
    (hc : cAt syms' i = top.newId)
    (hq : QueueFresh merges size syms (A ++ i :: j :: B) q)
    (hp : q'.Perm (newEntries merges syms A i B top.newId ++ q)) :
    QueueFresh merges size syms' (A ++ i :: B) q' := by
  have hsz := ha.2 _ _ _ hm
  rw [hid] at hsz
  obtain ⟨hA, hB, _⟩ := sorted_parts hs
  have hsplit : ∀ x ∈ A, ∀ y ∈ B, x ≠ y := by
    intro x hx y hy
    rw [List.pairwise_append] at hs
    have := hs.2.2 x hx y (by simp [hy])
    omega
  have hnd : (A ++ i :: B).Pairwise (· < ·) := by
    refine hs.sublist ?_
    exact List.Sublist.append_left (List.Sublist.cons_cons _ (List.sublist_cons_self _ _)) _
  have hjn : (A ++ i :: j :: B).Pairwise (· ≠ ·) := hs.imp (by intro a b h; omega)
  -- in a list without repetitions the successor is unique
  have huniq : ∀ {x y y'}, Adj (A ++ i :: B) x y → Adj (A ++ i :: B) x y' → y = y' := by
    intro x y y' h1 h2
    obtain ⟨u, v, e1⟩ := h1
    obtain ⟨u', v', e2⟩ := h2
    rw [e1] at e2
    have hd : (u ++ x :: y :: v).Pairwise (· < ·) := by rw [← e1]; exact hnd
    rcases List.append_eq_append_iff.1 e2 with ⟨as, h1, h2⟩ | ⟨bs, h1, h2⟩
    · cases as with
      | nil => simp at h2; exact h2.1
      | cons a as =>
        simp at h2
        obtain ⟨rfl, h2⟩ := h2
        rw [h2] at hd
        rw [List.pairwise_append, List.pairwise_cons] at hd
        have := hd.2.1.1 x (by simp)
        omega
    · cases bs with
      | nil => simp at h2; exact h2.1.symm
      | cons a as =>
        simp at h2
        obtain ⟨rfl, h2⟩ := h2
        rw [e1, e2, h2] at hnd
        rw [List.pairwise_append, List.pairwise_cons] at hnd
        have := hnd.2.1.1 x (by simp)
        omega
  intro e he y hadj
  rcases List.mem_append.1 (hp.mem_iff.1 he) with hn | ho
  · right
    rcases newEntries_pos hn with ⟨p, m', h1, h2, rfl⟩ | ⟨k, m', h1, h2, rfl⟩
    · have h3 : Adj (A ++ i :: B) p i := Adj.of_last_head h1 rfl
      have : y = i := huniq hadj h3
      subst this
      have hx := List.mem_of_getLast? h1
      rw [(hcl p (by simp [hx])).1, hc, h2]
    · have h3 : Adj (A ++ i :: B) i k := by
        cases B with
        | nil => cases h1
        | cons b B => simp at h1; subst h1; exact ⟨A, B, rfl⟩
      have : y = k := huniq hadj h3
      subst this
      have hy : y ∈ B := List.mem_of_mem_head? (by rw [h1]; rfl)
      show merges (cAt syms' i) (cAt syms' y) = _
      rw [(hcl y (by simp [hy])).1, hc, h2]
  · rcases hadj.after_merge (j := j) with ⟨h1, h2, h3⟩ | ⟨h1, rfl⟩ | ⟨h0, h1⟩ | ⟨h1, h2, h3⟩
    · rw [(hcl _ (List.mem_append.2 (Or.inl h2))).1, (hcl y (by simp [h3])).1]
      exact hq e ho y h1
    · left
      have hx := List.mem_of_getLast? h1
      have hold : Adj (A ++ y :: j :: B) e.pos y := Adj.of_last_head h1 rfl
      have := hq.le ha ho hold
      rw [(hcl _ (List.mem_append.2 (Or.inl hx))).1, hc, hsz]
      have := ha.1 (cAt syms j)
      omega
    · left
      have hy : y ∈ B := List.mem_of_mem_head? (by rw [h1]; rfl)
      have hold : Adj (A ++ i :: j :: B) e.pos j := ⟨A, B, by rw [h0]⟩
      have := hq.le ha ho hold
      rw [h0] at this ⊢
      rw [(hcl y (by simp [hy])).1, hc, hsz]
      have := ha.1 (cAt syms y)
      omega
    · rw [(hcl _ (List.mem_append.2 (Or.inr h2))).1, (hcl y (by simp [h3])).1]
      exact hq e ho y h1

theorem content_adj {syms : List Symbol} {L : List Nat} {u v : List (Int × Nat)} {x y : Int}
    {lx ly : Nat} (h : content syms L = u ++ (x, lx) :: (y, ly) :: v) :
    ∃ i j, Adj L i j ∧ cAt syms i = x ∧ cAt syms j = y := by
  unfold content at h
  obtain ⟨U, R, rfl, _, h2⟩ := List.map_eq_append_iff.1 h
  obtain ⟨i, R', rfl, hi, h3⟩ := List.map_eq_cons_iff.1 h2
  obtain ⟨j, R'', rfl, hj, _⟩ := List.map_eq_cons_iff.1 h3
  simp only [Prod.mk.injEq] at hi hj
  exact ⟨i, j, ⟨U, R'', rfl⟩, hi.1, hj.1⟩

theorem Complete.irreducible {merges : MergeTable} {syms : List Symbol} {L : List Nat}
    (h : Complete merges syms L []) : Irreducible merges (content syms L) := by
  intro u v a b la lb he
  obtain ⟨i, j, hadj, rfl, rfl⟩ := content_adj he
  cases hm : merges (cAt syms i) (cAt syms j) with
  | none => rfl
  | some m => exact absurd (h i j m hadj hm) (by simp)

/-- With an additive table every merge of the loop has the lowest rank. -/
theorem mergeLoop_priority (H : Heap) (merges : MergeTable) (size : Int → Nat)
    (ha : Additive merges size) :
    ∀ (fuel n : Nat) (syms : List Symbol) (q : List MergeE) (L : List Nat),
      WordInv syms L → H.Ok q → PosOk syms q → Complete merges syms L q →
      QueueFresh merges size syms L q → ∀ r,
      mergeLoop H merges (fun _ => false) fuel n syms q [] = .ok (some r) →
      ∃ L', WordInv r L' ∧ Star (PriorityMerge merges) (content syms L) (content r L') := by
  intro fuel
  induction fuel with
  | zero => intro n syms q L _ _ _ _ _ r h; cases h
  | succ fuel ih =>
    intro n syms q L hinv hok hq hcomp hfresh r hr
    unfold mergeLoop at hr
    cases hpop : H.pop q with
    | none =>
      rw [hpop] at hr
      cases hr
      exact ⟨L, hinv, .refl⟩
    | some p =>
      obtain ⟨top, q1⟩ := p
      have hok1 := H.ok_pop _ _ _ hok hpop
      have hperm := H.pop_perm _ _ _ hok hpop
      have hmin := H.pop_min _ _ _ hok hpop
      have htopm : top ∈ q := hperm.mem_iff.2 (by simp)
      have htop : top.pos < syms.length := hq top htopm
      have hq1 : PosOk syms q1 := fun e he => hq e (hperm.mem_iff.2 (by simp [he]))
      have hcomp' : Complete merges syms L (top :: q1) :=
        fun i j m h1 h2 => hperm.mem_iff.1 (hcomp i j m h1 h2)
      have hfresh' : QueueFresh merges size syms L q1 :=
        fun e he => hfresh e (hperm.mem_iff.2 (by simp [he]))
      rw [hpop] at hr
      simp only [Bool.false_eq_true, if_false, List.foldl_nil] at hr
      rcases mergeAt_spec H merges hinv htop hok1 with ⟨he, hst⟩ | ⟨A, j, B, m, syms', q', hL, hm, hid,
          he, hinv', hlen, hcl, hc, hl, hok', hp'⟩
      · rw [he] at hr
        exact ih _ _ _ L hinv hok1 hq1 (hcomp'.stale hst) hfresh' r hr
      · rw [he] at hr
        simp only at hr
        subst hL
        obtain ⟨L', h1, h2⟩ := ih _ syms' q' _ hinv' hok' (hq1.step hinv hlen hp')
          (Complete.merge rfl hinv.sorted hcl hc hcomp' hp')
          (hfresh'.merge ha hm hid hinv.sorted hcl hc hp') r hr
        refine ⟨L', h1, ?_⟩
        obtain ⟨e1, e2⟩ := content_step hcl hc hl
        have hrank : m.rank = top.rank := by
          rcases hfresh top htopm j ⟨A, B, rfl⟩ with h | h
          · have := ha.2 _ _ _ hm
            rw [hid] at this
            omega
          · rw [hm] at h; cases h; rfl
        rw [e2] at h2
        refine Star.trans (Star.single ?_) h2
        rw [e1, ← hid]
        refine .mk _ _ _ _ _ _ m hm ?_
        intro u' v' x y lx ly m' hdec hm'
        rw [← e1] at hdec
        obtain ⟨i', j', hadj, rfl, rfl⟩ := content_adj hdec
        have := hmin _ (hcomp i' j' m' hadj hm')
        rw [hrank]
        exact this

theorem fresh_load (H : Heap) (merges : MergeTable) (size : Int → Nat) (ss : List Symbol) :
    QueueFresh merges size ss (List.range ss.length) (loadQueue H merges 0 ss []) := by
  obtain ⟨_, _, h⟩ := loadQueue_spec H merges ss 0 [] H.ok_nil
  intro e he j hadj
  right
  rcases (h e).1 he with he | ⟨k, a, b, m, h1, h2, h3, rfl⟩
  · cases he
  · obtain ⟨rfl, _⟩ := adj_range hadj
    simp only [Nat.zero_add]
    rw [cAt_eq h1, cAt_eq h2, h3]

/-- With a dropped entry the queue is never empty again: the loop does not end. -/
theorem mergeLoop_forever (H : Heap) (merges : MergeTable) (drop : Nat → Bool) :
    ∀ (fuel n : Nat) (syms : List Symbol) (q skip : List MergeE) (L : List Nat),
      WordInv syms L → H.Ok q → PosOk syms q → PosOk syms skip → q ≠ [] → skip ≠ [] →
      (∀ k, n ≤ k → drop k = false) →
      mergeLoop H merges drop fuel n syms q skip = .ok none := by
  intro fuel
  induction fuel with
  | zero => intros; rfl
  | succ fuel ih =>
    intro n syms q skip L hinv hok hq hskip hqe hse hd
    unfold mergeLoop
    cases hpop : H.pop q with
    | none => exact absurd ((H.pop_none q hok).1 hpop) hqe
    | some p =>
      obtain ⟨top, q1⟩ := p
      have hok1 := H.ok_pop _ _ _ hok hpop
      have hperm := H.pop_perm _ _ _ hok hpop
      have htop : top.pos < syms.length := hq top (hperm.mem_iff.2 (by simp))
      have hq1 : PosOk syms q1 := fun e he => hq e (hperm.mem_iff.2 (by simp [he]))
      obtain ⟨hok2, hp2⟩ := foldl_push H skip q1 hok1
      have hq2 : PosOk syms (skip.foldl H.push q1) := by
        intro e he
        rcases List.mem_append.1 (hp2.mem_iff.1 he) with he | he
        · exact hskip e he
        · exact hq1 e he
      have hne : skip.foldl H.push q1 ≠ [] := by
        intro h
        rw [h] at hp2
        have := hp2.length_eq
        simp at this
        exact hse (List.eq_nil_of_length_eq_zero (by omega))
      simp only [hd n (Nat.le_refl n), Bool.false_eq_true, if_false]
      have hd' : ∀ k, n + 1 ≤ k → drop k = false := fun k hk => hd k (by omega)
      rcases mergeAt_spec H merges hinv htop hok2 with ⟨he, _⟩ | ⟨A, j, B, m, syms', q', hL, hm, hid,
          he, hinv', hlen, hcl, hc, hl, hok', hp'⟩
      · rw [he]
        exact ih _ _ _ _ L hinv hok2 hq2 hskip hne hse hd'
      · rw [he]
        simp only
        subst hL
        refine ih _ _ _ _ _ hinv' hok' (hq2.step hinv hlen hp')
            (fun e he => by rw [hlen]; exact hskip e he) ?_ hse hd'
        intro h
        rw [h] at hp'
        have := hp'.length_eq
        simp at this
        exact hne (List.eq_nil_of_length_eq_zero (by omega))

end Tok
