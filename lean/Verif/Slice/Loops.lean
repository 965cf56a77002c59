import Verif.Slice.Lemmas

/-! # Lemmas about the loops over slices -/

namespace Tok.SliceUtil

/-! ### Filter -/

theorem filter_take_succ (f : α → Bool) (L : List α) {i : Nat} (hi : i < L.length) :
    (L.take (i + 1)).filter f = (L.take i).filter f ++ (if f L[i] then [L[i]] else []) := by
  rw [List.take_add_one, List.getElem?_eq_getElem hi, List.filter_append]
  by_cases h : f L[i] = true <;> simp [h]

theorem filter_take_le (f : α → Bool) (L : List α) (i : Nat) : ((L.take i).filter f).length ≤ i :=
  Nat.le_trans (List.length_filter_le _ _) (by simp; omega)

/-- What the list looks like after `i` rounds. -/
def filtered (f : α → Bool) (L : List α) (i : Nat) : List α :=
  (L.take i).filter f ++ L.drop ((L.take i).filter f).length

theorem filtered_length (f : α → Bool) (L : List α) {i : Nat} (hi : i ≤ L.length) : (filtered f L i).length = L.length := by
  have := filter_take_le f L i
  simp [filtered]
  omega

theorem filtered_get (f : α → Bool) (L : List α) {i : Nat} (hi : i < L.length) :
    (filtered f L i)[i]'(by rw [filtered_length f L (by omega)]; exact hi) = L[i] := by
  have := filter_take_le f L i
  simp only [filtered]
  rw [List.getElem_append_right this, List.getElem_drop]
  congr 1; omega

theorem filtered_keep (f : α → Bool) (L : List α) {i : Nat} (hi : i < L.length) (hf : f L[i] = true) :
    (filtered f L i).set ((L.take i).filter f).length L[i] = filtered f L (i + 1) := by
  have hle := filter_take_le f L i
  have hlt : ((L.take i).filter f).length < L.length := by omega
  simp only [filtered, filter_take_succ f L hi, hf, if_true, List.length_append, List.length_singleton]
  rw [List.set_append_right _ _ (Nat.le_refl _), Nat.sub_self, List.drop_eq_getElem_cons hlt, List.set_cons_zero,
    List.append_assoc]
  rfl

theorem filtered_drop (f : α → Bool) (L : List α) {i : Nat} (hi : i < L.length) (hf : ¬ f L[i] = true) :
    filtered f L i = filtered f L (i + 1) := by
  simp [filtered, filter_take_succ f L hi, hf]

theorem filterLoop_eq (f : α → Bool) {h : Heap α} {a : Slice} (hv : Valid h a) {L : List α} (hL : L.length = a.len) :
    ∀ k, k ≤ a.len → filterLoop f a k ((L.take (a.len - k)).filter f).length (store h a (filtered f L (a.len - k))) =
      .ok (store h a (filtered f L a.len), (L.filter f).length) := by
  intro k
  induction k with
  | zero =>
    intro _
    simp only [filterLoop, Nat.sub_zero]
    rw [← hL, List.take_length]
  | succ k ih =>
    intro hk
    have hi : a.len - (k + 1) < L.length := by omega
    have hs : a.len - (k + 1) + 1 = a.len - k := by omega
    have hlen := filtered_length f L (show a.len - (k + 1) ≤ L.length by omega)
    simp only [filterLoop]
    rw [get_eq (read_store hv (hlen.trans hL)) (by omega), Res.bind_ok, filtered_get f L hi]
    have ih := ih (by omega)
    rw [← hs, filter_take_succ f L hi] at ih
    split
    · next hf =>
      have hle := filter_take_le f L (a.len - (k + 1))
      rw [put_eq hv (hlen.trans hL) (by omega), Res.bind_ok, filtered_keep f L hi hf]
      simpa [hf] using ih
    · next hf =>
      rw [filtered_drop f L hi hf]
      simpa [hf] using ih

theorem reuseLoop_eq (f : α → Bool) (spare : List α) {h : Heap α} {a : Slice} (hv : Valid h a) {L : List α}
    (hL : L.length = a.len) : ∀ k, k ≤ a.len →
      reuseLoop f spare a k { a with len := ((L.take (a.len - k)).filter f).length } (store h a (filtered f L (a.len - k))) =
        .ok (store h a (filtered f L a.len), { a with len := (L.filter f).length }) := by
  intro k
  induction k with
  | zero =>
    intro _
    simp only [reuseLoop, Nat.sub_zero]
    rw [← hL, List.take_length]
  | succ k ih =>
    intro hk
    have hi : a.len - (k + 1) < L.length := by omega
    have hs : a.len - (k + 1) + 1 = a.len - k := by omega
    have hlen := filtered_length f L (show a.len - (k + 1) ≤ L.length by omega)
    have hle := filter_take_le f L (a.len - (k + 1))
    have hcap := hv.2.1
    simp only [reuseLoop]
    rw [get_eq (read_store hv (hlen.trans hL)) (by omega), Res.bind_ok, filtered_get f L hi]
    have ih := ih (by omega)
    rw [← hs, filter_take_succ f L hi] at ih
    split
    · next hf =>
      have hv' := valid_store hv (hlen.trans hL)
      have hvb := valid_len hv' (n := ((L.take (a.len - (k + 1))).filter f).length) (by omega)
      rw [append_fits hvb spare [_] (by simp; omega)]
      simp only [List.length_singleton]
      have hr : read (store h a (filtered f L (a.len - (k + 1))))
          { a with len := ((L.take (a.len - (k + 1))).filter f).length } = (L.take (a.len - (k + 1))).filter f := by
        rw [read_upTo (by omega), read_store hv (hlen.trans hL), filtered, List.take_append_of_le_length (Nat.le_refl _),
          List.take_length]
      rw [hr]
      have hst := store_front hv' (L := (L.take (a.len - (k + 1))).filter f ++ [L[a.len - (k + 1)]])
        (n := ((L.take (a.len - (k + 1))).filter f).length + 1) (by simp) (by omega)
      rw [hst, read_store hv (hlen.trans hL), store_store hv (hlen.trans hL)
        (by simp [hlen]; omega)]
      have e : (L.take (a.len - (k + 1))).filter f ++ [L[a.len - (k + 1)]] ++
          (filtered f L (a.len - (k + 1))).drop (((L.take (a.len - (k + 1))).filter f).length + 1) =
          filtered f L (a.len - (k + 1) + 1) := by
        simp only [filtered, filter_take_succ f L hi, hf, if_true]
        congr 1
        rw [← List.drop_drop, List.drop_append_of_le_length (Nat.le_refl _), List.drop_length, List.nil_append, List.drop_drop]
        simp
      rw [e]
      simpa [hf] using ih
    · next hf =>
      rw [filtered_drop f L hi hf]
      simpa [hf] using ih

theorem zeroLoop_eq (zero : α) {h : Heap α} {a : Slice} (hv : Valid h a) : ∀ k (L : List α), L.length = a.len → k ≤ a.len →
    zeroLoop zero a k (store h a L) = .ok (store h a (L.take (a.len - k) ++ List.replicate k zero)) := by
  intro k
  induction k with
  | zero =>
    intro L hL _
    simp only [zeroLoop, Nat.sub_zero, ← hL, List.take_length, List.replicate_zero, List.append_nil]
  | succ k ih =>
    intro L hL hk
    simp only [zeroLoop]
    rw [put_eq hv hL (by omega), Res.bind_ok, ih _ (by simpa using hL) (by omega)]
    congr 2
    have hs : a.len - k = a.len - (k + 1) + 1 := by omega
    rw [hs, List.take_add_one, List.getElem?_set_self (by omega), List.take_set_of_le (Nat.le_refl _), List.append_assoc]
    rfl

/-! ### Reverse -/

theorem swapped_length (L : List α) (i j : Nat) (hi : i < L.length) (hj : j < L.length) :
    (swapped L i j hi hj).length = L.length := by simp [swapped]

theorem swapped_get? (L : List α) (i j : Nat) (hi : i < L.length) (hj : j < L.length) (p : Nat) :
    (swapped L i j hi hj)[p]? = if p = j then L[i]? else if p = i then L[j]? else L[p]? := by
  simp only [swapped, List.getElem?_set, List.length_set]
  split
  · next h => subst h; rw [if_pos rfl]; simp [hi]
  · next h =>
    rw [if_neg (Ne.symm h)]
    split
    · next h2 => subst h2; rw [if_pos rfl]; simp [hj]
    · next h2 => rw [if_neg (Ne.symm h2)]

/-- The middle part of a list turned around, from `k` places from both ends. -/
def Turned (L M : List α) (k : Nat) : Prop :=
  M.length = L.length ∧ ∀ p, p < L.length → M[p]? = if k ≤ p ∧ p + k < L.length then L[L.length - 1 - p]? else L[p]?

theorem Turned.reverse {L M : List α} (h : Turned L M 0) : M = L.reverse := by
  apply List.ext_getElem?
  intro p
  by_cases hp : p < L.length
  · rw [h.2 p hp, if_pos (by omega), List.getElem?_reverse hp]
  · rw [List.getElem?_eq_none (by rw [h.1]; omega), List.getElem?_eq_none (by simp; omega)]

theorem reverseLoop_eq {h : Heap α} {a : Slice} (hv : Valid h a) {L : List α} (hL : L.length = a.len) :
    ∀ k M, k ≤ a.len / 2 → Turned L M k → reverseLoop a k (store h a M) = .ok (store h a L.reverse) := by
  intro k
  induction k with
  | zero =>
    intro M _ ht
    rw [ht.reverse]
    rfl
  | succ k ih =>
    intro M hk ht
    have hM := ht.1
    have hi : k < M.length := by omega
    have hj : a.len - 1 - k < M.length := by omega
    simp only [reverseLoop]
    rw [swap_eq hv (hM.trans hL) hi hj, Res.bind_ok]
    refine ih _ (by omega) ⟨by rw [swapped_length, hM], fun p hp => ?_⟩
    rw [swapped_get?, ht.2 p hp, ht.2 k (by omega), ht.2 (a.len - 1 - k) (by omega), hL]
    by_cases h1 : p = a.len - 1 - k
    · rw [if_pos h1, if_neg (by omega), if_pos (by omega)]
      congr 1; omega
    · rw [if_neg h1]
      by_cases h2 : p = k
      · rw [if_pos h2, if_neg (by omega), if_pos (by omega), h2]
      · rw [if_neg h2]
        by_cases h3 : k + 1 ≤ p ∧ p + (k + 1) < a.len
        · rw [if_pos h3, if_pos (by omega)]
        · rw [if_neg h3, if_neg (by omega)]

/-- The ends of a list turned around, `k` places on both ends. -/
def TurnedEnds (L M : List α) (k : Nat) : Prop :=
  M.length = L.length ∧ ∀ p, p < L.length → M[p]? = if p < k ∨ L.length ≤ p + k then L[L.length - 1 - p]? else L[p]?

theorem TurnedEnds.reverse {L M : List α} {k : Nat} (h : TurnedEnds L M k) (hk : L.length ≤ k + k + 1) : M = L.reverse := by
  apply List.ext_getElem?
  intro p
  by_cases hp : p < L.length
  · rw [h.2 p hp, List.getElem?_reverse hp]
    split
    · rfl
    · congr 1; omega
  · rw [List.getElem?_eq_none (by rw [h.1]; omega), List.getElem?_eq_none (by simp; omega)]

theorem reverseLRLoop_eq {h : Heap α} {a : Slice} (hv : Valid h a) {L : List α} (hL : L.length = a.len) :
    ∀ fuel k M, a.len ≤ fuel + (k + k) → k ≤ a.len → TurnedEnds L M k →
      reverseLRLoop a fuel k (a.len - k) (store h a M) = .ok (store h a L.reverse) := by
  intro fuel
  induction fuel with
  | zero =>
    intro k M hf _ ht
    rw [ht.reverse (by omega)]
    rfl
  | succ fuel ih =>
    intro k M hf hk ht
    simp only [reverseLRLoop]
    have hM := ht.1
    rw [show a.len - k - 1 = a.len - (k + 1) by omega]
    split
    · next hlt =>
      have hi : k < M.length := by omega
      have hj : a.len - (k + 1) < M.length := by omega
      rw [swap_eq hv (hM.trans hL) hi hj, Res.bind_ok]
      refine ih (k + 1) _ (by omega) (by omega) ⟨by rw [swapped_length, hM], fun p hp => ?_⟩
      rw [swapped_get?, ht.2 p hp, ht.2 k (by omega), ht.2 (a.len - (k + 1)) (by omega), hL]
      by_cases h1 : p = a.len - (k + 1)
      · rw [if_pos h1, if_neg (by omega), if_pos (by omega)]
        congr 1; omega
      · rw [if_neg h1]
        by_cases h2 : p = k
        · rw [if_pos h2, if_neg (by omega), if_pos (by omega)]
          congr 1; omega
        · rw [if_neg h2]
          by_cases h3 : p < k + 1 ∨ a.len ≤ p + (k + 1)
          · rw [if_pos h3, if_pos (by omega)]
          · rw [if_neg h3, if_neg (by omega)]
    · next hge => rw [ht.reverse (by omega)]

/-! ### Shuffle -/

theorem swapped_perm (L : List α) (i j : Nat) (hi : i < L.length) (hj : j < L.length) : (swapped L i j hi hj).Perm L :=
  List.set_set_perm hi hj

theorem shuffleLoop_eq (random : Nat → Nat) (hr : ∀ i, random i ≤ i) {h : Heap α} {a : Slice} (hv : Valid h a) :
    ∀ k (L : List α), L.length = a.len → k < a.len ∨ k = 0 → ∃ M, M.Perm L ∧
      shuffleLoop random a k (store h a L) = .ok (store h a M) := by
  intro k
  induction k with
  | zero => intro L _ _; exact ⟨L, List.Perm.refl _, rfl⟩
  | succ k ih =>
    intro L hL hk
    have h1 := hr (k + 1)
    have hi : k + 1 < L.length := by omega
    have hj : random (k + 1) < L.length := by omega
    obtain ⟨M, hp, he⟩ := ih (swapped L _ _ hi hj) (by rw [swapped_length, hL]) (by omega)
    refine ⟨M, hp.trans (swapped_perm L _ _ hi hj), ?_⟩
    simp only [shuffleLoop]
    rw [swap_eq hv hL hi hj, Res.bind_ok, he]

theorem swapped_take {L : List α} {k j : Nat} (hj : j ≤ k) (hk : k < L.length) :
    (swapped L k j hk (by omega)).drop (k + 1) = L.drop (k + 1) := by
  apply List.ext_getElem?
  intro p
  rw [List.getElem?_drop, List.getElem?_drop, swapped_get?, if_neg (by omega), if_neg (by omega)]

/-- Every order can come out of a shuffle. -/
theorem shuffleLoop_reach {h : Heap α} {a : Slice} (hv : Valid h a) :
    ∀ k (L T : List α), L.length = a.len → k < a.len ∨ k = 0 → T.Perm L → T.drop (k + 1) = L.drop (k + 1) →
      ∃ random : Nat → Nat, (∀ i, random i ≤ i) ∧ shuffleLoop random a k (store h a L) = .ok (store h a T) := by
  intro k
  induction k with
  | zero =>
    intro L T hL _ hp hd
    refine ⟨fun i => i, fun i => Nat.le_refl i, ?_⟩
    have : T = L := by
      cases T with
      | nil => exact (List.nil_perm.mp hp).symm
      | cons x T =>
        cases L with
        | nil => exact absurd (List.perm_nil.mp hp) (by simp)
        | cons y L =>
          simp only [Nat.zero_add, List.drop_succ_cons, List.drop_zero] at hd
          subst hd
          have := (List.perm_append_right_iff (l₁ := [x]) (l₂ := [y]) T).mp (by simpa using hp)
          rw [List.singleton_perm_singleton.mp this]
    rw [this]
    rfl
  | succ k ih =>
    intro L T hL hk hp hd
    have hi : k + 1 < L.length := by omega
    have hT := hp.length_eq
    -- the element that is to be at `k + 1` is at most there
    have hsplit : (T.take (k + 2)).Perm (L.take (k + 2)) := by
      have h1 : (T.take (k + 2) ++ T.drop (k + 2)).Perm (L.take (k + 2) ++ L.drop (k + 2)) := by
        rw [List.take_append_drop, List.take_append_drop]; exact hp
      rw [hd] at h1
      exact (List.perm_append_right_iff _).mp h1
    have hmem : T[k + 1]'(by omega) ∈ L.take (k + 2) := by
      apply hsplit.mem_iff.mp
      rw [List.mem_take_iff_getElem]
      exact ⟨k + 1, by omega, rfl⟩
    obtain ⟨j, hj, hje⟩ := List.mem_take_iff_getElem.mp hmem
    have hj' : j ≤ k + 1 := by omega
    have hjl : j < L.length := by omega
    obtain ⟨r, hr, he⟩ := ih (swapped L (k + 1) j hi hjl) T (by rw [swapped_length, hL]) (by omega)
      (hp.trans (swapped_perm L _ _ hi hjl).symm) (by
        apply List.ext_getElem?
        intro p
        rw [List.getElem?_drop, List.getElem?_drop, swapped_get?]
        by_cases hp0 : p = 0
        · subst hp0
          by_cases hjk : k + 1 + 0 = j
          · rw [if_pos hjk, List.getElem?_eq_getElem (by omega), List.getElem?_eq_getElem hi, ← hje]
            congr 2; omega
          · rw [if_neg hjk, if_pos (by omega), List.getElem?_eq_getElem (by omega), List.getElem?_eq_getElem hjl, ← hje]
        · rw [if_neg (by omega), if_neg (by omega)]
          have := congrArg (fun l => l[p - 1]?) hd
          simp only [List.getElem?_drop] at this
          rw [show k + 1 + p = k + 1 + 1 + (p - 1) by omega]
          exact this)
    refine ⟨fun i => if i = k + 1 then j else r i, ?_, ?_⟩
    · intro i
      by_cases h : i = k + 1
      · simp [h, hj']
      · simp [h, hr i]
    · simp only [shuffleLoop, if_true]
      rw [swap_eq hv hL hi hjl, Res.bind_ok, ← he]
      have : ∀ (m : Nat) (h' : Heap α), m ≤ k → shuffleLoop (fun i => if i = k + 1 then j else r i) a m h' = shuffleLoop r a m h' := by
        intro m
        induction m with
        | zero => intro h' _; rfl
        | succ m ihm =>
          intro h' hm
          simp only [shuffleLoop]
          rw [if_neg (by omega)]
          congr 1
          funext h''
          exact ihm h'' (by omega)
      exact this k _ (Nat.le_refl k)

/-! ### Deduplicate -/

/-- One more element: left out if the one before is the same. -/
def uniqSnoc [DecidableEq α] (D : List α) (y : α) : List α := if D.getLast? = some y then D else D ++ [y]

/-- A list without elements that are the same as the one before. -/
def uniq [DecidableEq α] (L : List α) : List α := L.foldl uniqSnoc []

theorem uniq_take_succ [DecidableEq α] (L : List α) {i : Nat} (hi : i < L.length) :
    uniq (L.take (i + 1)) = uniqSnoc (uniq (L.take i)) L[i] := by
  rw [List.take_add_one, List.getElem?_eq_getElem hi, uniq, List.foldl_append]
  rfl

theorem uniq_length_le [DecidableEq α] (L : List α) : ∀ i, i ≤ L.length → (uniq (L.take i)).length ≤ i := by
  intro i
  induction i with
  | zero => intro _; simp [uniq]
  | succ i ih =>
    intro hi
    have := ih (by omega)
    rw [uniq_take_succ L hi, uniqSnoc]
    split
    · omega
    · simp; omega

theorem uniqSnoc_length [DecidableEq α] (D : List α) (y : α) : 1 ≤ (uniqSnoc D y).length := by
  rw [uniqSnoc]
  split
  · next h => cases D with
    | nil => simp at h
    | cons => simp
  · simp

/-- What the list looks like after `i` elements. -/
def deduped [DecidableEq α] (L : List α) (i : Nat) : List α := uniq (L.take i) ++ L.drop (uniq (L.take i)).length

theorem deduped_length [DecidableEq α] (L : List α) {i : Nat} (hi : i ≤ L.length) : (deduped L i).length = L.length := by
  have := uniq_length_le L i hi
  simp [deduped]; omega

theorem dedupLoop_eq [DecidableEq α] {h : Heap α} {a : Slice} (hv : Valid h a) {L : List α} (hL : L.length = a.len) :
    ∀ k, k < a.len → dedupLoop a k ((uniq (L.take (a.len - k))).length - 1) (store h a (deduped L (a.len - k))) =
      .ok (store h a (deduped L a.len), (uniq L).length - 1) := by
  intro k
  induction k with
  | zero =>
    intro _
    simp only [dedupLoop, Nat.sub_zero]
    rw [← hL, List.take_length]
  | succ k ih =>
    intro hk
    obtain ⟨i, hie⟩ : ∃ i, a.len - (k + 1) = i + 1 := ⟨a.len - (k + 1) - 1, by omega⟩
    have hi : i + 1 < L.length := by omega
    have hs : a.len - k = i + 1 + 1 := by omega
    have hlen := deduped_length L (show i + 1 ≤ L.length by omega)
    have hle := uniq_length_le L (i + 1) (by omega)
    have hge : 1 ≤ (uniq (L.take (i + 1))).length := by rw [uniq_take_succ L (by omega)]; exact uniqSnoc_length _ _
    have hr := read_store hv (hlen.trans hL)
    have ih := ih (by omega)
    simp only [dedupLoop, hie]
    rw [get_eq hr (show (uniq (L.take (i + 1))).length - 1 < _ by omega), get_eq hr (show i + 1 < _ by omega), Res.bind_ok, Res.bind_ok]
    have g1 : (deduped L (i + 1))[(uniq (L.take (i + 1))).length - 1]'(by omega) = (uniq (L.take (i + 1)))[(uniq (L.take (i + 1))).length - 1]'(by omega) := by
      simp only [deduped]
      rw [List.getElem_append_left]
    have g2 : (deduped L (i + 1))[i + 1]'(by omega) = L[i + 1] := by
      simp only [deduped]
      rw [List.getElem_append_right hle, List.getElem_drop]
      congr 1; omega
    rw [g1, g2]
    have hlast : (uniq (L.take (i + 1))).getLast? = some ((uniq (L.take (i + 1)))[(uniq (L.take (i + 1))).length - 1]'(by omega)) := by
      rw [List.getLast?_eq_getElem?, List.getElem?_eq_getElem (by omega)]
    rw [hs, uniq_take_succ L hi] at ih
    split
    · next he =>
      have hu : uniqSnoc (uniq (L.take (i + 1))) L[i + 1] = uniq (L.take (i + 1)) := by
        rw [uniqSnoc, if_pos (by rw [hlast, he])]
      have hd : deduped L (i + 1 + 1) = deduped L (i + 1) := by
        simp only [deduped, uniq_take_succ L hi, hu]
      rw [hu, hd] at ih
      exact ih
    · next he =>
      have hu : uniqSnoc (uniq (L.take (i + 1))) L[i + 1] = uniq (L.take (i + 1)) ++ [L[i + 1]] := by
        rw [uniqSnoc, if_neg (by rw [hlast]; simpa using he)]
      have hd : deduped L (i + 1 + 1) = (deduped L (i + 1)).set (uniq (L.take (i + 1))).length L[i + 1] := by
        simp only [deduped, uniq_take_succ L hi, hu, List.length_append, List.length_singleton]
        rw [List.set_append_right _ _ (Nat.le_refl _), Nat.sub_self,
          List.drop_eq_getElem_cons (show (uniq (L.take (i + 1))).length < L.length by omega), List.set_cons_zero, List.append_assoc]
        rfl
      rw [hu, hd] at ih
      rw [Nat.sub_add_cancel hge, put_eq hv (hlen.trans hL) (by omega), Res.bind_ok]
      simpa using ih

theorem uniq_mem [DecidableEq α] (L : List α) : ∀ x, x ∈ uniq L ↔ x ∈ L := by
  have : ∀ (L D : List α) x, x ∈ L.foldl uniqSnoc D ↔ x ∈ D ∨ x ∈ L := by
    intro L
    induction L with
    | nil => simp
    | cons y L ih =>
      intro D x
      rw [List.foldl_cons, ih, uniqSnoc]
      split
      · next h =>
        have := List.mem_of_getLast? h
        constructor
        · rintro (h | h)
          · exact .inl h
          · exact .inr (List.mem_cons_of_mem _ h)
        · rintro (h | h)
          · exact .inl h
          · cases List.mem_cons.mp h with
            | inl h => exact .inl (h ▸ this)
            | inr h => exact .inr h
      · simp [or_assoc]
  intro x
  simpa [uniq] using this L [] x

theorem uniq_increasing [DecidableEq α] (r : α → α → Prop) (hanti : ∀ x y, r x y → r y x → x = y) {L : List α}
    (hL : L.Pairwise r) : (uniq L).Pairwise (fun x y => r x y ∧ x ≠ y) := by
  have : ∀ (L D : List α), D.Pairwise (fun x y => r x y ∧ x ≠ y) → L.Pairwise r → (∀ x ∈ D, ∀ y ∈ L, r x y) →
      (L.foldl uniqSnoc D).Pairwise (fun x y => r x y ∧ x ≠ y) := by
    intro L
    induction L with
    | nil => intro D hD _ _; exact hD
    | cons y L ih =>
      intro D hD hL hc
      rw [List.foldl_cons]
      rw [List.pairwise_cons] at hL
      apply ih _ _ hL.2
      · intro x hx z hz
        rw [uniqSnoc] at hx
        split at hx
        · exact hc x hx z (List.mem_cons_of_mem _ hz)
        · cases List.mem_append.mp hx with
          | inl hx => exact hc x hx z (List.mem_cons_of_mem _ hz)
          | inr hx => rw [List.mem_singleton.mp hx]; exact hL.1 z hz
      · rw [uniqSnoc]
        split
        · exact hD
        · next hne =>
          rw [List.pairwise_append]
          refine ⟨hD, by simp, ?_⟩
          intro x hx z hz
          rw [List.mem_singleton.mp hz]
          have hxy := hc x hx y (by simp)
          refine ⟨hxy, fun e => ?_⟩
          subst e
          -- the last element of `D` is between them
          cases hl : D.getLast? with
          | none => rw [List.getLast?_eq_none_iff] at hl; subst hl; simp at hx
          | some w =>
            obtain ⟨A, rfl⟩ := List.getLast?_eq_some_iff.mp hl
            have hwx : r w x := hc w (by simp) x (by simp)
            apply hne
            rw [hl]
            cases List.mem_append.mp hx with
            | inl hA =>
              rw [List.pairwise_append] at hD
              rw [hanti w x hwx (hD.2.2 x hA w (by simp)).1]
            | inr hx => rw [List.mem_singleton.mp hx]
  exact this L [] (by simp) hL (by simp)

/-! ### Batches -/

theorem batchLoop_eq {h : Heap α} {size : Nat} (hsize : 0 < size) : ∀ fuel (a : Slice), a.len ≤ fuel → Valid h a →
    ∃ front last, batchLoop size fuel a = front ++ [last] ∧ (front ++ [last]).flatMap (read h) = read h a ∧
      (∀ s ∈ front, s.len = size ∧ s.cap = size ∧ Valid h s) ∧ Valid h last ∧ last.len ≤ size ∧
      (a.len ≠ 0 → last.len ≠ 0) := by
  intro fuel
  induction fuel with
  | zero =>
    intro a ha hv
    exact ⟨[], a, rfl, by simp, by simp, hv, by omega, by omega⟩
  | succ fuel ih =>
    intro a ha hv
    simp only [batchLoop]
    split
    · next hlt =>
      have hb := hv.2
      obtain ⟨front, last, h1, h2, h3, h4, h5, h6⟩ := ih ⟨a.arr, a.off + size, a.len - size, a.cap - size⟩
        (by simp only []; omega) (valid_from hv (by omega))
      refine ⟨⟨a.arr, a.off, size, size⟩ :: front, last, by rw [h1]; rfl, ?_, ?_, h4, h5, fun _ => h6 (by simp only []; omega)⟩
      · rw [List.cons_append, List.flatMap_cons, h2, read_from (by omega)]
        have : read h ⟨a.arr, a.off, size, size⟩ = (read h a).take size := read_upTo (s := a) (by omega)
        rw [this, List.take_append_drop]
      · intro s hs
        cases List.mem_cons.mp hs with
        | inl e =>
          subst e
          exact ⟨rfl, rfl, hv.1, Nat.le_refl _, by have := hb.2; simp only [arrayOf] at this ⊢; omega⟩
        | inr e => exact h3 s e
    · exact ⟨[], a, rfl, by simp, by simp, hv, by omega, fun e => e⟩

end Tok.SliceUtil
