import Verif.Slice.Model

/-! # Lemmas about slices and their arrays -/

namespace Tok.SliceUtil

/-- The heap in which the elements of `s` are `L`. -/
def store (h : Heap α) (s : Slice) (L : List α) : Heap α := h.set s.arr (writeAt (arrayOf h s) s.off L)

/-- Nothing but the elements of `s` differs between two heaps. -/
structure Within (s : Slice) (h h' : Heap α) : Prop where
  count : h'.length = h.length
  arrays : ∀ n, n ≠ s.arr → h'[n]? = h[n]?
  before : (arrayOf h' s).take s.off = (arrayOf h s).take s.off
  after : (arrayOf h' s).drop (s.off + s.len) = (arrayOf h s).drop (s.off + s.len)

theorem Valid.off_le {h : Heap α} {s : Slice} (hv : Valid h s) : s.off ≤ (arrayOf h s).length := by
  obtain ⟨_, h2, h3⟩ := hv; omega

theorem read_length {h : Heap α} {s : Slice} (hv : Valid h s) : (read h s).length = s.len := by
  obtain ⟨_, h2, h3⟩ := hv
  simp only [read, List.length_take, List.length_drop]
  omega

theorem writeAt_length {l vs : List α} {i : Nat} (h : i + vs.length ≤ l.length) : (writeAt l i vs).length = l.length := by
  simp only [writeAt, List.length_append, List.length_take, List.length_drop]
  omega

theorem arrayOf_store {h : Heap α} {s : Slice} (hv : Valid h s) (L : List α) :
    arrayOf (store h s L) s = writeAt (arrayOf h s) s.off L := by
  simp [store, arrayOf, hv.1]

theorem read_store {h : Heap α} {s : Slice} (hv : Valid h s) {L : List α} (hL : L.length = s.len) :
    read (store h s L) s = L := by
  have ho := hv.off_le
  rw [read, arrayOf_store hv, writeAt, List.append_assoc, List.drop_append_of_le_length (by simp; omega)]
  rw [List.drop_of_length_le (by rw [List.length_take]; omega), List.nil_append, List.take_append_of_le_length (by omega), ← hL, List.take_length]

theorem valid_store {h : Heap α} {s : Slice} (hv : Valid h s) {L : List α} (hL : L.length = s.len) :
    Valid (store h s L) s := by
  refine ⟨by simpa [store] using hv.1, hv.2.1, ?_⟩
  rw [arrayOf_store hv, writeAt_length]
  · exact hv.2.2
  · have := hv.2; omega

theorem within_store {h : Heap α} {s : Slice} (hv : Valid h s) {L : List α} (hL : L.length = s.len) :
    Within s h (store h s L) := by
  have ho := hv.off_le
  have h2 := hv.2
  refine ⟨by simp [store], ?_, ?_, ?_⟩
  · intro n hn
    rw [store, List.getElem?_set_ne (Ne.symm hn)]
  · rw [arrayOf_store hv, writeAt, List.append_assoc, List.take_append_of_le_length (by simp; omega)]
    rw [List.take_take, Nat.min_self]
  · have hl : (List.take s.off (arrayOf h s) ++ L).length = s.off + s.len := by
      simp only [List.length_append, List.length_take]
      omega
    rw [arrayOf_store hv, writeAt, List.drop_append, List.drop_of_length_le (by omega), hl, hL, List.nil_append,
      Nat.sub_self, List.drop_zero]

theorem store_store {h : Heap α} {s : Slice} (hv : Valid h s) {L M : List α} (hL : L.length = s.len)
    (hM : M.length = s.len) : store (store h s L) s M = store h s M := by
  have hw := within_store hv hL
  have e : writeAt (arrayOf (store h s L) s) s.off M = writeAt (arrayOf h s) s.off M := by
    simp only [writeAt]
    rw [hw.before, hM, hw.after]
  show (store h s L).set s.arr (writeAt (arrayOf (store h s L) s) s.off M) = store h s M
  rw [e]
  simp only [store, List.set_set]

theorem store_read {h : Heap α} {s : Slice} (hv : Valid h s) : store h s (read h s) = h := by
  have e : writeAt (arrayOf h s) s.off (read h s) = arrayOf h s := by
    rw [writeAt, read_length hv]
    simp only [read]
    rw [List.append_assoc, ← List.drop_drop, List.take_append_drop, List.take_append_drop]
  rw [store, e]
  apply List.ext_getElem?
  intro n
  by_cases hn : s.arr = n
  · subst hn
    simp [arrayOf, hv.1]
  · rw [List.getElem?_set_ne hn]

theorem Within.refl (s : Slice) (h : Heap α) : Within s h h := ⟨rfl, fun _ _ => rfl, rfl, rfl⟩

/-- A slice in the elements before or behind is not changed, nor one of another array. -/
theorem Within.other {s t : Slice} {h h' : Heap α} (hw : Within s h h')
    (ht : t.arr ≠ s.arr ∨ t.off + t.len ≤ s.off ∨ s.off + s.len ≤ t.off) : read h' t = read h t := by
  by_cases hn : t.arr = s.arr
  · have e1 : arrayOf h' t = arrayOf h' s := by simp [arrayOf, hn]
    have e2 : arrayOf h t = arrayOf h s := by simp [arrayOf, hn]
    rw [read, read, e1, e2]
    rcases ht with ht | ht | ht
    · exact absurd hn ht
    · have key : ∀ A : List α, (A.drop t.off).take t.len = ((A.take s.off).drop t.off).take t.len := by
        intro A
        rw [List.drop_take, List.take_take, Nat.min_eq_left (by omega)]
      rw [key (arrayOf h' s), key (arrayOf h s), hw.before]
    · have key : ∀ A : List α, A.drop t.off = (A.drop (s.off + s.len)).drop (t.off - (s.off + s.len)) := by
        intro A
        rw [List.drop_drop]
        congr 1; omega
      rw [key (arrayOf h' s), key (arrayOf h s), hw.after]
  · simp only [read, arrayOf, hw.arrays _ hn]

theorem get_eq {h : Heap α} {s : Slice} {L : List α} (hr : read h s = L) {i : Nat} (hi : i < L.length) :
    get h s i = .ok L[i] := by
  simp only [get, hr, List.getElem?_eq_getElem hi]

theorem set_window (A : List α) (off len i : Nat) (v : α) (ho : off + len ≤ A.length) (hi : i < len) :
    writeAt A off (((A.drop off).take len).set i v) = A.set (off + i) v := by
  apply List.ext_getElem?
  intro n
  have hl : (((A.drop off).take len).set i v).length = len := by simp; omega
  simp only [writeAt, hl]
  rw [List.append_assoc, List.getElem?_append]
  simp only [List.length_take, Nat.min_eq_left (show off ≤ A.length by omega)]
  split
  · next hn =>
    rw [List.getElem?_set_ne (by omega), List.getElem?_take_of_lt hn]
  · next hn =>
    rw [List.getElem?_append, hl]
    split
    · next hm =>
      by_cases he : off + i = n
      · subst he
        rw [Nat.add_sub_cancel_left, List.getElem?_set_self (by simp; omega), List.getElem?_set_self (by omega)]
      · rw [List.getElem?_set_ne (by omega), List.getElem?_set_ne he, List.getElem?_take_of_lt hm, List.getElem?_drop]
        congr 1; omega
    · next hm =>
      rw [List.getElem?_set_ne (by omega), List.getElem?_drop]
      congr 1; omega

theorem put_eq {h : Heap α} {s : Slice} (hv : Valid h s) {L : List α} (hL : L.length = s.len) {i : Nat}
    (hi : i < s.len) (v : α) : put (store h s L) s i v = .ok (store h s (L.set i v)) := by
  have hv' := valid_store hv hL
  rw [put, if_pos hi]
  congr 1
  have e : writeAt (arrayOf (store h s L) s) s.off (L.set i v) = (arrayOf (store h s L) s).set (s.off + i) v := by
    rw [← set_window _ s.off s.len i v (by have := hv'.2; omega) hi]
    congr 2
    exact (read_store hv hL).symm
  rw [← e]
  exact store_store hv hL (by simpa using hL)

/-- Two elements of a list exchanged. -/
def swapped (L : List α) (i j : Nat) (hi : i < L.length) (hj : j < L.length) : List α := (L.set i L[j]).set j L[i]

theorem swap_eq {h : Heap α} {s : Slice} (hv : Valid h s) {L : List α} (hL : L.length = s.len) {i j : Nat}
    (hi : i < L.length) (hj : j < L.length) : swap (store h s L) s i j = .ok (store h s (swapped L i j hi hj)) := by
  have hr := read_store hv hL
  simp only [swap, get_eq hr hi, get_eq hr hj, Res.bind_ok, put_eq hv hL (hL ▸ hi)]
  exact put_eq hv (by simpa using hL) (hL ▸ hj) _

theorem append_fits {h : Heap α} {s : Slice} (hv : Valid h s) (spare vs : List α) (hc : s.len + vs.length ≤ s.cap) :
    append spare h s vs =
      (store h { s with len := s.len + vs.length } (read h s ++ vs), { s with len := s.len + vs.length }) := by
  rw [append, if_pos hc, store]
  have hl := read_length hv
  have hb := hv.2
  have e : writeAt (arrayOf h s) (s.off + s.len) vs = writeAt (arrayOf h s) s.off (read h s ++ vs) := by
    simp only [writeAt, List.length_append, hl]
    rw [List.take_add, ← List.append_assoc, Nat.add_assoc]
    rfl
  rw [e]
  rfl

theorem valid_len {h : Heap α} {s : Slice} (hv : Valid h s) {n : Nat} (hn : n ≤ s.cap) : Valid h { s with len := n } :=
  ⟨hv.1, hn, hv.2.2⟩

/-- `append` gives the elements of the slice and the others behind them. -/
theorem append_read {h : Heap α} {s : Slice} (hv : Valid h s) (spare vs : List α) :
    read (append spare h s vs).1 (append spare h s vs).2 = read h s ++ vs ∧
      Valid (append spare h s vs).1 (append spare h s vs).2 := by
  have hl := read_length hv
  by_cases hc : s.len + vs.length ≤ s.cap
  · rw [append_fits hv spare vs hc]
    have hv' := valid_len hv hc
    have hl' : (read h s ++ vs).length = ({ s with len := s.len + vs.length } : Slice).len := by simp [hl]
    exact ⟨read_store hv' hl', valid_store hv' hl'⟩
  · rw [append, if_neg hc]
    refine ⟨?_, ?_⟩
    · have e : arrayOf (h ++ [read h s ++ vs ++ spare])
          ⟨h.length, 0, s.len + vs.length, s.len + vs.length + spare.length⟩ = read h s ++ vs ++ spare := by simp [arrayOf]
      have hl' : (read h s ++ vs).length = s.len + vs.length := by simp [hl]
      show ((arrayOf (h ++ [read h s ++ vs ++ spare]) _).drop 0).take (s.len + vs.length) = _
      rw [e, List.drop_zero, List.take_append_of_le_length (by omega), List.take_of_length_le (by omega)]
    · refine ⟨by simp, by simp, ?_⟩
      have e : arrayOf (h ++ [read h s ++ vs ++ spare])
          ⟨h.length, 0, s.len + vs.length, s.len + vs.length + spare.length⟩ = read h s ++ vs ++ spare := by simp [arrayOf]
      rw [e]
      simp [hl]
      omega

theorem read_alloc_old (h : Heap α) (vs : List α) {s : Slice} (hs : s.arr < h.length) : read (h ++ [vs]) s = read h s := by
  simp [read, arrayOf, List.getElem?_append, hs]

theorem valid_alloc_old {h : Heap α} (vs : List α) {s : Slice} (hv : Valid h s) : Valid (h ++ [vs]) s := by
  refine ⟨by simp; have := hv.1; omega, hv.2.1, ?_⟩
  have : arrayOf (h ++ [vs]) s = arrayOf h s := by simp [arrayOf, List.getElem?_append, hv.1]
  rw [this]
  exact hv.2.2

theorem read_alloc (h : Heap α) (vs : List α) : read (alloc h vs).1 (alloc h vs).2 = vs ∧
    Valid (alloc h vs).1 (alloc h vs).2 := by
  simp [alloc, read, arrayOf, Valid]

/-- `append` changes nothing but the elements behind the slice, within its capacity. -/
theorem append_other {h : Heap α} {s t : Slice} (hv : Valid h s) (ht : t.arr < h.length) (spare vs : List α)
    (ho : t.arr ≠ s.arr ∨ t.off + t.len ≤ s.off + s.len ∨ s.off + s.cap ≤ t.off) :
    read (append spare h s vs).1 t = read h t := by
  by_cases hc : s.len + vs.length ≤ s.cap
  · rw [append, if_pos hc]
    -- the part written is that of a slice behind `s`
    have hb := hv.2
    have hv' : Valid h ⟨s.arr, s.off + s.len, vs.length, s.cap - s.len⟩ :=
      ⟨hv.1, by simp; omega, by
        have : arrayOf h ⟨s.arr, s.off + s.len, vs.length, s.cap - s.len⟩ = arrayOf h s := rfl
        rw [this]; simp only; omega⟩
    have hw := within_store hv' (L := vs) rfl
    refine hw.other ?_
    simp only
    omega
  · rw [append, if_neg hc]
    exact read_alloc_old h _ ht

theorem upTo_eq {s : Slice} {n : Nat} (h : n ≤ s.cap) : s.upTo n = .ok { s with len := n } := by
  rw [Slice.upTo, if_pos (by omega)]
  simp

theorem from_eq {s : Slice} {n : Nat} (h : n ≤ s.len) : s.from n = .ok ⟨s.arr, s.off + n, s.len - n, s.cap - n⟩ := by
  rw [Slice.from, if_pos (by omega)]
  simp

theorem read_from {h : Heap α} {s : Slice} {n : Nat} (_hn : n ≤ s.len) :
    read h ⟨s.arr, s.off + n, s.len - n, s.cap - n⟩ = (read h s).drop n := by
  simp only [read, arrayOf]
  rw [List.drop_take, List.drop_drop]

theorem read_upTo {h : Heap α} {s : Slice} {n : Nat} (hn : n ≤ s.len) :
    read h { s with len := n } = (read h s).take n := by
  simp only [read, arrayOf]
  rw [List.take_take, Nat.min_eq_left hn]

theorem valid_from {h : Heap α} {s : Slice} (hv : Valid h s) {n : Nat} (hn : n ≤ s.len) :
    Valid h ⟨s.arr, s.off + n, s.len - n, s.cap - n⟩ := by
  obtain ⟨h1, h2, h3⟩ := hv
  refine ⟨h1, by simp; omega, ?_⟩
  simp only [arrayOf] at h3 ⊢
  omega

/-- Elements stored in a front part. -/
theorem store_front {h : Heap α} {s : Slice} (hv : Valid h s) {L : List α} {n : Nat} (hL : L.length = n) (hn : n ≤ s.len) :
    store h { s with len := n } L = store h s (L ++ (read h s).drop n) := by
  have hl := read_length hv
  have hb := hv.2
  simp only [store]
  congr 1
  simp only [writeAt, arrayOf] at *
  have : (L ++ List.drop n (read h s)).length = s.len := by simp [hl, hL]; omega
  rw [this, hL, List.append_assoc, List.append_assoc, List.append_assoc]
  congr 2
  simp only [read, arrayOf]
  rw [List.drop_take, List.drop_drop, show s.off + s.len = (s.off + n) + (s.len - n) by omega,
    ← List.drop_drop (j := s.off + n), List.take_append_drop]

end Tok.SliceUtil
