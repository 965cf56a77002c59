import Verif.Encoding.Heap

/-! C13. -/

namespace Tok.Heap

/-- The slice lies within its backing array. -/
def Fits (h : Heap α) (s : Slice) : Prop := s.arr < h.length ∧ s.off + s.len ≤ (arrayOf h s).length

/-- The overflow parts of a list, as windows of it: `maxLen - stride` new elements each, preceded by
the last `stride` elements before them. -/
def windows (l : List α) (maxLen stride : Nat) : Nat → Nat → List (List α)
  | 0, _ => []
  | fuel + 1, k =>
    if maxLen + (maxLen - stride) * k < l.length then
      (l.take (maxLen + (maxLen - stride) * (k + 1))).drop (maxLen + (maxLen - stride) * k - stride) ::
        windows l maxLen stride fuel (k + 1)
    else []

/-- A list padded on the right to a length. -/
def padded (target : Nat) (v : α) (l : List α) : List α := l ++ List.replicate (target - l.length) v

theorem length_read {h : Heap α} {s : Slice} (hf : Fits h s) : (read h s).length = s.len := by
  unfold read
  rw [List.length_take, List.length_drop]
  have := hf.2
  omega

theorem length_writeAt (l : List α) (i : Nat) (vs : List α) : (writeAt l i vs).length = l.length := by
  induction vs generalizing l i with
  | nil => rfl
  | cons v vs ih => rw [writeAt, ih, List.length_set]

theorem getElem?_writeAt (l : List α) (i : Nat) (vs : List α) (hl : i + vs.length ≤ l.length) (j : Nat) :
    (writeAt l i vs)[j]? = if i ≤ j ∧ j < i + vs.length then vs[j - i]? else l[j]? := by
  induction vs generalizing l i with
  | nil => simp [writeAt]; omega
  | cons v vs ih =>
    simp only [List.length_cons] at hl ⊢
    rw [writeAt, ih _ _ (by rw [List.length_set]; omega)]
    by_cases h1 : i + 1 ≤ j ∧ j < i + 1 + vs.length
    · rw [if_pos h1, if_pos (by omega), show j - i = (j - (i + 1)) + 1 by omega, List.getElem?_cons_succ]
    · rw [if_neg h1, List.getElem?_set]
      by_cases h2 : i = j
      · subst h2
        rw [if_pos rfl, if_pos (by omega), if_pos (by omega)]
        simp
      · rw [if_neg h2, if_neg (by omega)]

theorem writeAt_same (l : List α) (i n : Nat) (hn : i + n ≤ l.length) :
    writeAt l i ((l.drop i).take n) = l := by
  apply List.ext_getElem?
  intro j
  rw [getElem?_writeAt _ _ _ (by rw [List.length_take, List.length_drop]; omega)]
  rw [List.length_take, List.length_drop]
  by_cases h : i ≤ j ∧ j < i + min n (l.length - i)
  · rw [if_pos h, List.getElem?_take, if_pos (by omega), List.getElem?_drop, show i + (j - i) = j by omega]
  · rw [if_neg h]

theorem set_same (h : Heap α) (i : Nat) : h.set i (h[i]?.getD []) = h := by
  apply List.ext_getElem?
  intro j
  rw [List.getElem?_set]
  by_cases he : i = j
  · subst he
    by_cases hl : i < h.length
    · simp [hl]
    · simp [hl]
  · rw [if_neg he]

theorem getElem?_read (h : Heap α) (s : Slice) (i : Nat) :
    (read h s)[i]? = if i < s.len then (arrayOf h s)[s.off + i]? else none := by
  unfold read
  rw [List.getElem?_take]
  split
  · rw [List.getElem?_drop]
  · rfl

theorem read_congr {h h' : Heap α} {t : Slice} (ha : arrayOf h' t = arrayOf h t) : read h' t = read h t := by
  unfold read; rw [ha]

/-! ### Truncate -/

/-- The slices that `Truncate` yields: window `k` of the array. -/
def wslice (s : Slice) (maxLen stride k : Nat) : Slice :=
  ⟨s.arr, s.off + maxLen + (maxLen - stride) * k - stride,
    min maxLen (s.len - (maxLen + (maxLen - stride) * k - stride))⟩

def wslices (s : Slice) (maxLen stride : Nat) : Nat → Nat → List Slice
  | 0, _ => []
  | fuel + 1, k =>
    if maxLen + (maxLen - stride) * k < s.len then
      wslice s maxLen stride k :: wslices s maxLen stride fuel (k + 1)
    else []

theorem read_wslice {h : Heap α} {s : Slice} (hf : Fits h s) {maxLen stride k : Nat} (hs : stride < maxLen)
    (hk : maxLen + (maxLen - stride) * k < s.len) :
    read h (wslice s maxLen stride k) =
      ((read h s).take (maxLen + (maxLen - stride) * (k + 1))).drop (maxLen + (maxLen - stride) * k - stride) := by
  have hmul : (maxLen - stride) * (k + 1) = (maxLen - stride) * k + (maxLen - stride) := by
    rw [Nat.mul_add, Nat.mul_one]
  have hfit := hf.2
  apply List.ext_getElem?
  intro j
  rw [getElem?_read, List.getElem?_drop, List.getElem?_take, getElem?_read, hmul]
  have harr : arrayOf h (wslice s maxLen stride k) = arrayOf h s := rfl
  have hlen : (wslice s maxLen stride k).len = min maxLen (s.len - (maxLen + (maxLen - stride) * k - stride)) := rfl
  have hoff : (wslice s maxLen stride k).off = s.off + maxLen + (maxLen - stride) * k - stride := rfl
  rw [harr, hlen, hoff]
  by_cases hj : j < min maxLen (s.len - (maxLen + (maxLen - stride) * k - stride))
  · rw [if_pos hj, if_pos (by omega), if_pos (by omega)]
    congr 1
    omega
  · rw [if_neg hj]
    by_cases hj2 : maxLen + (maxLen - stride) * k - stride + j < maxLen + ((maxLen - stride) * k + (maxLen - stride))
    · rw [if_pos hj2, if_neg (by omega)]
    · rw [if_neg hj2]

theorem map_read_wslices {h : Heap α} {s : Slice} (hf : Fits h s) {maxLen stride : Nat} (hs : stride < maxLen) :
    ∀ (fuel k : Nat), (wslices s maxLen stride fuel k).map (read h) = windows (read h s) maxLen stride fuel k := by
  intro fuel
  induction fuel with
  | zero => intro k; rfl
  | succ fuel ih =>
    intro k
    rw [wslices, windows, length_read hf]
    by_cases hk : maxLen + (maxLen - stride) * k < s.len
    · rw [if_pos hk, if_pos hk, List.map_cons, ih, read_wslice hf hs hk]
    · rw [if_neg hk, if_neg hk]; rfl

/-- The loop leaves the heap as it is and yields the windows. -/
theorem truncateLoop_eq (spare : List α) (h : Heap α) (s : Slice) (hf : Fits h s)
    {maxLen stride : Nat} (hs : stride < maxLen) (hm : maxLen ≤ s.len) :
    ∀ (fuel k : Nat) (prev : Slice), prev.arr = s.arr → stride ≤ prev.len →
      prev.off + prev.len = s.off + maxLen + (maxLen - stride) * k →
      truncateLoop spare (sub s maxLen s.len) (maxLen - stride) stride fuel k prev h =
        (h, wslices s maxLen stride fuel k) := by
  intro fuel
  induction fuel with
  | zero => intro k prev _ _ _; rfl
  | succ fuel ih =>
    intro k prev ha hl he
    rw [truncateLoop, wslices]
    have hsub : (sub s maxLen s.len).len = s.len - maxLen := rfl
    by_cases hk : (maxLen - stride) * k < s.len - maxLen
    · rw [hsub, if_pos hk, if_pos (by omega)]
      have hmul : (maxLen - stride) * (k + 1) = (maxLen - stride) * k + (maxLen - stride) := by
        rw [Nat.mul_add, Nat.mul_one]
      have hc : k * (maxLen - stride) = (maxLen - stride) * k := Nat.mul_comm _ _
      have hc' : (k + 1) * (maxLen - stride) = (maxLen - stride) * k + (maxLen - stride) := by
        rw [Nat.mul_comm, hmul]
      let stop := if (k + 1) * (maxLen - stride) > s.len - maxLen then s.len - maxLen
        else (k + 1) * (maxLen - stride)
      have hstop : stop = min ((maxLen - stride) * k + (maxLen - stride)) (s.len - maxLen) := by
        simp only [stop]; rw [hc']; split <;> omega
      have hfit := hf.2
      have hp : part spare h prev (sub s maxLen s.len) (maxLen - stride) k stride =
          (h, wslice s maxLen stride k) := by
        unfold part
        rw [hsub]
        simp only [if_neg (show ¬ prev.len < stride by omega), hc]
        rw [if_neg (by omega)]
        have hcur : read h (sub (sub s maxLen s.len) ((maxLen - stride) * k) stop) =
            ((arrayOf h s).drop (s.off + maxLen + (maxLen - stride) * k)).take (stop - (maxLen - stride) * k) := rfl
        have harr : arrayOf h (sub prev (prev.len - stride) prev.len) = arrayOf h s := by
          unfold arrayOf sub; rw [ha]
        have hcl : (read h (sub (sub s maxLen s.len) ((maxLen - stride) * k) stop)).length =
            stop - (maxLen - stride) * k := by
          rw [hcur, List.length_take, List.length_drop]; omega
        change append spare h (sub prev (prev.len - stride) prev.len)
          (read h (sub (sub s maxLen s.len) ((maxLen - stride) * k) stop)) = _
        unfold append
        rw [hcl, harr]
        have e1 : (sub prev (prev.len - stride) prev.len).off + (sub prev (prev.len - stride) prev.len).len =
            s.off + maxLen + (maxLen - stride) * k := by
          simp only [sub]; omega
        rw [e1, if_pos (by omega), hcur, writeAt_same _ _ _ (by omega)]
        have e2 : (sub prev (prev.len - stride) prev.len).arr = s.arr := ha
        rw [e2]
        have e3 : h.set s.arr (arrayOf h s) = h := set_same h s.arr
        rw [e3]
        simp only [sub, wslice, Prod.mk.injEq, Slice.mk.injEq, true_and]
        exact ⟨by omega, by omega⟩
      rw [hp]
      dsimp only
      by_cases hlast : (maxLen - stride) * (k + 1) < s.len - maxLen
      · rw [ih (k + 1) (wslice s maxLen stride k) rfl (by simp only [wslice]; omega) (by simp only [wslice]; omega)]
      · have hend : truncateLoop spare (sub s maxLen s.len) (maxLen - stride) stride fuel (k + 1)
            (wslice s maxLen stride k) h = (h, []) := by
          cases fuel with
          | zero => rfl
          | succ fuel => rw [truncateLoop, hsub, if_neg hlast]
        have hwend : wslices s maxLen stride fuel (k + 1) = [] := by
          cases fuel with
          | zero => rfl
          | succ fuel => rw [wslices, if_neg (by omega)]
        rw [hend, hwend]
    · rw [hsub, if_neg hk, if_neg (by omega)]

theorem truncate_eq (spare : List α) (h : Heap α) (s : Slice) (hf : Fits h s)
    {maxLen stride : Nat} (hs : stride < maxLen) (hm : maxLen ≤ s.len) :
    truncate spare h s maxLen stride =
      (h, ⟨s.arr, s.off, maxLen⟩, wslices s maxLen stride (s.len - maxLen) 0) := by
  unfold truncate
  dsimp only
  have : (sub s maxLen s.len).len = s.len - maxLen := rfl
  rw [this, truncateLoop_eq spare h s hf hs hm _ 0 (sub s 0 maxLen) rfl (by simp only [sub]; omega)
    (by simp only [sub]; omega)]
  simp [sub]

/-- C13, truncation. Although the parts share the array of the encoding, `Truncate` loses and
changes nothing: the kept slice holds the first `maxLen` elements and the parts are the windows of
the rest. -/
theorem C13_truncate (spare : List α) (h : Heap α) (s : Slice) (hf : Fits h s)
    {maxLen stride : Nat} (hs : stride < maxLen) (hm : maxLen ≤ s.len) :
    let r := truncate spare h s maxLen stride
    read r.1 r.2.1 = (read h s).take maxLen ∧
      r.2.2.map (read r.1) = windows (read h s) maxLen stride ((read h s).length - maxLen) 0 := by
  rw [truncate_eq spare h s hf hs hm]
  refine ⟨?_, ?_⟩
  · simp only [read, arrayOf, List.take_take]
    rw [Nat.min_eq_left hm]
  · rw [map_read_wslices hf hs, length_read hf]

/-! ### Padding -/

theorem append_one (spare : List α) (h : Heap α) (s : Slice) (v : α) (hf : Fits h s) :
    Fits (append spare h s [v]).1 (append spare h s [v]).2 ∧
      (append spare h s [v]).2.len = s.len + 1 ∧
      read (append spare h s [v]).1 (append spare h s [v]).2 = read h s ++ [v] := by
  unfold append
  simp only [List.length_singleton]
  by_cases hc : s.off + s.len + 1 ≤ (arrayOf h s).length
  · rw [if_pos hc]
    have ha : arrayOf (h.set s.arr (writeAt (arrayOf h s) (s.off + s.len) [v])) { s with len := s.len + 1 } =
        writeAt (arrayOf h s) (s.off + s.len) [v] := by
      unfold arrayOf
      rw [List.getElem?_set, if_pos rfl, if_pos hf.1]
      rfl
    refine ⟨⟨by dsimp only; rw [List.length_set]; exact hf.1, ?_⟩, rfl, ?_⟩
    · rw [ha, length_writeAt]; dsimp only; omega
    · apply List.ext_getElem?
      intro j
      rw [getElem?_read, ha, getElem?_writeAt _ _ _ (by simpa using hc), List.getElem?_append, length_read hf,
        getElem?_read]
      simp only [List.length_singleton]
      by_cases h1 : j < s.len
      · rw [if_pos (by omega), if_neg (by omega), if_pos h1, if_pos h1]
      · by_cases h2 : j = s.len
        · subst h2
          rw [if_pos (by omega), if_pos (by omega), if_neg h1]
          simp
        · rw [if_neg (by omega), if_neg h1]
          symm
          apply List.getElem?_eq_none
          simp; omega
  · rw [if_neg hc]
    have ha : arrayOf (h ++ [read h s ++ [v] ++ spare]) ⟨h.length, 0, s.len + 1⟩ = read h s ++ [v] ++ spare := by
      unfold arrayOf; simp
    have hlr := length_read hf
    refine ⟨⟨by simp, ?_⟩, rfl, ?_⟩
    · rw [ha]; simp; omega
    · unfold read at ha ⊢
      rw [ha]
      have : ((arrayOf h s).drop s.off).take s.len = read h s := rfl
      rw [this, List.drop_zero, ← hlr, List.take_left' (by simp)]

/-- Appending to a slice leaves alone every slice that does not reach behind its end. -/
theorem append_other (spare : List α) (h : Heap α) (s t : Slice) (v : α) (hf : Fits h s) (ht : Fits h t)
    (hd : t.arr = s.arr → t.off + t.len ≤ s.off + s.len) :
    Fits (append spare h s [v]).1 t ∧ read (append spare h s [v]).1 t = read h t := by
  unfold append
  simp only [List.length_singleton]
  by_cases hc : s.off + s.len + 1 ≤ (arrayOf h s).length
  · rw [if_pos hc]
    by_cases hst : t.arr = s.arr
    · have ha : arrayOf (h.set s.arr (writeAt (arrayOf h s) (s.off + s.len) [v])) t =
          writeAt (arrayOf h s) (s.off + s.len) [v] := by
        unfold arrayOf
        rw [hst, List.getElem?_set, if_pos rfl, if_pos hf.1]
        rfl
      have hat : arrayOf h t = arrayOf h s := by unfold arrayOf; rw [hst]
      have hd := hd hst
      refine ⟨⟨by dsimp only; rw [List.length_set]; exact ht.1, ?_⟩, ?_⟩
      · have := ht.2
        rw [ha, length_writeAt, ← hat]; exact this
      · apply List.ext_getElem?
        intro j
        rw [getElem?_read, getElem?_read, ha, hat, getElem?_writeAt _ _ _ (by simpa using hc)]
        by_cases hj : j < t.len
        · rw [if_pos hj, if_pos hj, if_neg (by omega)]
        · rw [if_neg hj, if_neg hj]
    · have ha : arrayOf (h.set s.arr (writeAt (arrayOf h s) (s.off + s.len) [v])) t = arrayOf h t := by
        unfold arrayOf
        rw [List.getElem?_set, if_neg (fun e => hst e.symm)]
      refine ⟨⟨by dsimp only; rw [List.length_set]; exact ht.1, by rw [ha]; exact ht.2⟩, ?_⟩
      unfold read; rw [ha]
  · rw [if_neg hc]
    have ha : arrayOf (h ++ [read h s ++ [v] ++ spare]) t = arrayOf h t := by
      unfold arrayOf
      rw [List.getElem?_append, if_pos ht.1]
    exact ⟨⟨by have := ht.1; simp; omega, by rw [ha]; exact ht.2⟩, read_congr ha⟩

theorem append_end (spare : List α) (h : Heap α) (s : Slice) (v : α) (a n : Nat)
    (hd : a < h.length) (hn : a = s.arr → n ≤ s.off + s.len) :
    a = (append spare h s [v]).2.arr → n ≤ (append spare h s [v]).2.off + (append spare h s [v]).2.len := by
  unfold append
  split
  · intro e; have := hn e; dsimp only; omega
  · intro e; dsimp only at e; omega

theorem length_append_heap (spare : List α) (h : Heap α) (s : Slice) (vs : List α) :
    h.length ≤ (append spare h s vs).1.length := by
  unfold append; split
  · simp
  · simp

theorem padLoop_ok (spare : List α) (v : α) :
    ∀ (n : Nat) (h : Heap α) (s : Slice), Fits h s →
      Fits (padLoop spare v n h s).1 (padLoop spare v n h s).2 ∧
      read (padLoop spare v n h s).1 (padLoop spare v n h s).2 = read h s ++ List.replicate n v ∧
      ∀ t, Fits h t → (t.arr = s.arr → t.off + t.len ≤ s.off + s.len) →
        Fits (padLoop spare v n h s).1 t ∧ read (padLoop spare v n h s).1 t = read h t := by
  intro n
  induction n with
  | zero => intro h s hf; exact ⟨hf, by simp [padLoop], fun t ht _ => ⟨ht, rfl⟩⟩
  | succ n ih =>
    intro h s hf
    obtain ⟨a1, a2, a3⟩ := append_one spare h s v hf
    obtain ⟨i1, i2, i3⟩ := ih _ _ a1
    rw [padLoop]
    refine ⟨i1, ?_, ?_⟩
    · rw [i2, a3, List.replicate_succ, List.append_assoc]; rfl
    · intro t ht hd
      obtain ⟨o1, o2⟩ := append_other spare h s t v hf ht hd
      obtain ⟨p1, p2⟩ := i3 t o1 (append_end spare h s v t.arr _ ht.1 hd)
      exact ⟨p1, by rw [p2, o2]⟩

/-- Padding parts of which only the last is too short, and which lie one after another. -/
theorem padParts_ok (spare : List α) (v : α) (target : Nat) :
    ∀ (ps : List Slice) (h : Heap α), (∀ p ∈ ps, Fits h p) →
      (∀ p ∈ ps.dropLast, target ≤ p.len) →
      (∀ l, ps.getLast? = some l → ∀ p ∈ ps, p.arr = l.arr → p.off + p.len ≤ l.off + l.len) →
      (padParts spare v target h ps).2.map (read (padParts spare v target h ps).1) =
        ps.map (fun p => padded target v (read h p)) ∧
      ∀ t, Fits h t → (∀ l, ps.getLast? = some l → t.arr = l.arr → t.off + t.len ≤ l.off + l.len) →
        Fits (padParts spare v target h ps).1 t ∧ read (padParts spare v target h ps).1 t = read h t := by
  intro ps
  induction ps with
  | nil => intro h _ _ _; exact ⟨rfl, fun t ht _ => ⟨ht, rfl⟩⟩
  | cons p ps ih =>
    intro h hf hl hd
    cases ps with
    | nil =>
      have hp := hf p (List.mem_singleton.mpr rfl)
      obtain ⟨k1, k2, k3⟩ := padLoop_ok spare v (target - p.len) h p hp
      simp only [padParts, pad1, List.map_cons, List.map_nil]
      refine ⟨?_, fun t ht hdt => k3 t ht (hdt p rfl)⟩
      rw [k2, padded, length_read hp]
    | cons q qs =>
      have hp := hf p List.mem_cons_self
      have hlp : target ≤ p.len := hl p (by simp [List.dropLast])
      have hz : pad1 spare v target h p = (h, p) := by
        unfold pad1; rw [show target - p.len = 0 by omega]; rfl
      have hlast : (p :: q :: qs).getLast? = (q :: qs).getLast? := by simp [List.getLast?_cons_cons]
      obtain ⟨i1, i2⟩ := ih h (fun x hx => hf x (List.mem_cons_of_mem _ hx))
        (fun x hx => hl x (by rw [List.dropLast_cons_of_ne_nil (by simp)]; exact List.mem_cons_of_mem _ hx))
        (fun l hl' x hx => hd l (by rw [hlast]; exact hl') x (List.mem_cons_of_mem _ hx))
      rw [padParts, hz]
      dsimp only
      refine ⟨?_, fun t ht hdt => i2 t ht (fun l hl' => hdt l (by rw [hlast]; exact hl'))⟩
      rw [List.map_cons, List.map_cons, i1]
      have := (i2 p hp (fun l hl' => hd l (by rw [hlast]; exact hl') p List.mem_cons_self)).2
      rw [this, padded, length_read hp, show target - p.len = 0 by omega]
      simp

theorem wslices_spec (s : Slice) {maxLen stride : Nat} (hs : stride < maxLen) :
    ∀ (fuel k : Nat),
      (∀ p ∈ wslices s maxLen stride fuel k, p.arr = s.arr ∧ p.off + p.len ≤ s.off + s.len) ∧
      (s.len ≤ maxLen + fuel + (maxLen - stride) * k →
        (∀ p ∈ (wslices s maxLen stride fuel k).dropLast, p.len = maxLen) ∧
        (∀ l, (wslices s maxLen stride fuel k).getLast? = some l → l.off + l.len = s.off + s.len)) := by
  intro fuel
  induction fuel with
  | zero =>
    intro k
    exact ⟨(by intro p hp; cases hp), fun _ => ⟨(by intro p hp; cases hp), (by intro l hl; cases hl)⟩⟩
  | succ fuel ih =>
    intro k
    have hmul : (maxLen - stride) * (k + 1) = (maxLen - stride) * k + (maxLen - stride) := by
      rw [Nat.mul_add, Nat.mul_one]
    rw [wslices]
    by_cases hk : maxLen + (maxLen - stride) * k < s.len
    · rw [if_pos hk]
      obtain ⟨i1, i2⟩ := ih (k + 1)
      refine ⟨?_, ?_⟩
      · intro p hp
        rcases List.mem_cons.mp hp with rfl | hp
        · exact ⟨rfl, by simp only [wslice]; omega⟩
        · exact i1 p hp
      · intro hfuel
        obtain ⟨j1, j2⟩ := i2 (by omega)
        cases hw : wslices s maxLen stride fuel (k + 1) with
        | nil =>
          refine ⟨by intro p hp; simp at hp, ?_⟩
          intro l hl
          simp only [List.getLast?_singleton, Option.some.injEq] at hl
          subst hl
          have : ¬ maxLen + (maxLen - stride) * (k + 1) < s.len := by
            intro hlt
            cases fuel with
            | zero => omega
            | succ f => rw [wslices, if_pos hlt] at hw; cases hw
          simp only [wslice]; omega
        | cons q qs =>
          have hlt : maxLen + (maxLen - stride) * (k + 1) < s.len := by
            apply Classical.byContradiction
            intro hn
            cases fuel with
            | zero => rw [wslices] at hw; cases hw
            | succ f => rw [wslices, if_neg hn] at hw; cases hw
          rw [hw] at j1 j2
          refine ⟨?_, ?_⟩
          · intro p hp
            rw [List.dropLast_cons_of_ne_nil (by simp)] at hp
            rcases List.mem_cons.mp hp with rfl | hp
            · simp only [wslice]; omega
            · exact j1 p hp
          · intro l hl
            rw [List.getLast?_cons_cons] at hl
            exact j2 l hl
    · rw [if_neg hk]
      exact ⟨(by intro p hp; cases hp), fun _ => ⟨(by intro p hp; cases hp), (by intro l hl; cases hl)⟩⟩

/-- C13, padding to at most the truncation length. Truncating and then padding gives, for the kept
slice and for every part, what it would give on separate copies. The case of a larger target is
missing: `C13_padding_violated`. -/
theorem C13_truncate_pad_partial (spare : List α) (v : α) (h : Heap α) (s : Slice) (hf : Fits h s)
    {maxLen stride target : Nat} (hs : stride < maxLen) (hm : maxLen ≤ s.len) (ht : target ≤ maxLen) :
    let r := truncate spare h s maxLen stride
    let p := padAll spare v target r.1 r.2.1 r.2.2
    read p.1 p.2.1 = (read h s).take maxLen ∧
      p.2.2.map (read p.1) =
        (windows (read h s) maxLen stride ((read h s).length - maxLen) 0).map (padded target v) := by
  rw [truncate_eq spare h s hf hs hm]
  dsimp only
  unfold padAll
  rw [if_pos (show target ≤ maxLen from ht)]
  dsimp only
  obtain ⟨w1, w2⟩ := wslices_spec s hs (s.len - maxLen) 0
  obtain ⟨w2, w3⟩ := w2 (by omega)
  have hfp : ∀ p ∈ wslices s maxLen stride (s.len - maxLen) 0, Fits h p := by
    intro p hp
    obtain ⟨e1, e2⟩ := w1 p hp
    have h1 := hf.1
    have h2 := hf.2
    have : arrayOf h p = arrayOf h s := by unfold arrayOf; rw [e1]
    exact ⟨by rw [e1]; exact h1, by rw [this]; omega⟩
  obtain ⟨k1, k2⟩ := padParts_ok spare v target _ h hfp (fun p hp => by rw [w2 p hp]; exact ht)
    (fun l hl p hp _ => by rw [w3 l hl]; exact (w1 p hp).2)
  refine ⟨?_, ?_⟩
  · have h1 := hf.1
    have h2 := hf.2
    rw [(k2 ⟨s.arr, s.off, maxLen⟩ ⟨h1, by
      have : arrayOf h ⟨s.arr, s.off, maxLen⟩ = arrayOf h s := rfl
      rw [this]; dsimp only; omega⟩ (fun l hl _ => by rw [w3 l hl]; dsimp only; omega)).2]
    simp only [read, arrayOf, List.take_take]
    rw [Nat.min_eq_left hm]
  · rw [k1, length_read hf, ← map_read_wslices hf hs, List.map_map]
    rfl

/-! ### Padding beyond the truncation length -/

/-- Appending `v` anywhere keeps a `v` that another slice shows. -/
theorem append_keeps (spare : List α) (h : Heap α) (s t : Slice) (v : α) (hf : Fits h s) (ht : Fits h t)
    (i : Nat) (hi : (read h t)[i]? = some v) :
    Fits (append spare h s [v]).1 t ∧ (read (append spare h s [v]).1 t)[i]? = some v := by
  unfold append
  simp only [List.length_singleton]
  by_cases hc : s.off + s.len + 1 ≤ (arrayOf h s).length
  · rw [if_pos hc]
    by_cases hst : t.arr = s.arr
    · have ha : arrayOf (h.set s.arr (writeAt (arrayOf h s) (s.off + s.len) [v])) t =
          writeAt (arrayOf h s) (s.off + s.len) [v] := by
        unfold arrayOf
        rw [hst, List.getElem?_set, if_pos rfl, if_pos hf.1]
        rfl
      have hat : arrayOf h t = arrayOf h s := by unfold arrayOf; rw [hst]
      refine ⟨⟨by dsimp only; rw [List.length_set]; exact ht.1, ?_⟩, ?_⟩
      · have := ht.2
        rw [ha, length_writeAt, ← hat]; exact this
      · rw [getElem?_read, hat] at hi
        rw [getElem?_read, ha, getElem?_writeAt _ _ _ (by simpa using hc)]
        by_cases hj : i < t.len
        · rw [if_pos hj] at hi ⊢
          simp only [List.length_singleton]
          by_cases hw : s.off + s.len ≤ t.off + i ∧ t.off + i < s.off + s.len + 1
          · rw [if_pos hw, show t.off + i - (s.off + s.len) = 0 by omega]; rfl
          · rw [if_neg hw]; exact hi
        · rw [if_neg hj] at hi; cases hi
    · have ha : arrayOf (h.set s.arr (writeAt (arrayOf h s) (s.off + s.len) [v])) t = arrayOf h t := by
        unfold arrayOf
        rw [List.getElem?_set, if_neg (fun e => hst e.symm)]
      refine ⟨⟨by dsimp only; rw [List.length_set]; exact ht.1, by rw [ha]; exact ht.2⟩, ?_⟩
      unfold read at hi ⊢; rw [ha]; exact hi
  · rw [if_neg hc]
    have ha : arrayOf (h ++ [read h s ++ [v] ++ spare]) t = arrayOf h t := by
      unfold arrayOf
      rw [List.getElem?_append, if_pos ht.1]
    exact ⟨⟨by have := ht.1; simp; omega, by rw [ha]; exact ht.2⟩, by dsimp only; rw [read_congr ha]; exact hi⟩

theorem padLoop_keeps (spare : List α) (v : α) (t : Slice) (i : Nat) :
    ∀ (n : Nat) (h : Heap α) (s : Slice), Fits h s → Fits h t → (read h t)[i]? = some v →
      Fits (padLoop spare v n h s).1 t ∧ (read (padLoop spare v n h s).1 t)[i]? = some v := by
  intro n
  induction n with
  | zero => intro h s _ ht hi; exact ⟨ht, hi⟩
  | succ n ih =>
    intro h s hf ht hi
    obtain ⟨a1, _, _⟩ := append_one spare h s v hf
    obtain ⟨b1, b2⟩ := append_keeps spare h s t v hf ht i hi
    exact ih _ _ a1 b1 b2

theorem append_fits (spare : List α) (h : Heap α) (s t : Slice) (v : α) (ht : Fits h t) :
    Fits (append spare h s [v]).1 t := by
  unfold append
  split
  · by_cases hst : t.arr = s.arr
    · refine ⟨by dsimp only; rw [List.length_set]; exact ht.1, ?_⟩
      have := ht.2
      have hl := ht.1
      unfold arrayOf at this ⊢
      rw [← hst, List.getElem?_set, if_pos rfl, if_pos hl]
      simp only [Option.getD_some, length_writeAt]
      exact this
    · refine ⟨by dsimp only; rw [List.length_set]; exact ht.1, ?_⟩
      have := ht.2
      unfold arrayOf at this ⊢
      rw [List.getElem?_set, if_neg (fun e => hst e.symm)]
      exact this
  · refine ⟨by have := ht.1; simp; omega, ?_⟩
    have := ht.2
    unfold arrayOf at this ⊢
    rw [List.getElem?_append, if_pos ht.1]
    exact this

theorem padLoop_fits (spare : List α) (v : α) (t : Slice) :
    ∀ (n : Nat) (h : Heap α) (s : Slice), Fits h t → Fits (padLoop spare v n h s).1 t := by
  intro n
  induction n with
  | zero => intro h s ht; exact ht
  | succ n ih => intro h s ht; exact ih _ _ (append_fits spare h s t v ht)

theorem padParts_keeps (spare : List α) (v : α) (target : Nat) (t : Slice) (i : Nat) :
    ∀ (ps : List Slice) (h : Heap α), (∀ p ∈ ps, Fits h p) → Fits h t → (read h t)[i]? = some v →
      Fits (padParts spare v target h ps).1 t ∧ (read (padParts spare v target h ps).1 t)[i]? = some v := by
  intro ps
  induction ps with
  | nil => intro h _ ht hi; exact ⟨ht, hi⟩
  | cons p ps ih =>
    intro h hf ht hi
    obtain ⟨k1, k2⟩ := padLoop_keeps spare v t i (target - p.len) h p (hf p List.mem_cons_self) ht hi
    exact ih _ (fun q hq => padLoop_fits spare v q _ h p (hf q (List.mem_cons_of_mem _ hq))) k1 k2

theorem padParts_fits (spare : List α) (v : α) (target : Nat) (t : Slice) :
    ∀ (ps : List Slice) (h : Heap α), Fits h t → Fits (padParts spare v target h ps).1 t := by
  intro ps
  induction ps with
  | nil => intro h ht; exact ht
  | cons p ps ih => intro h ht; exact ih _ (padLoop_fits spare v t _ h p ht)

/-- The first append writes just behind the slice. -/
theorem append_writes (spare : List α) (h : Heap α) (s t : Slice) (v : α) (hf : Fits h s) (hst : t.arr = s.arr)
    (i : Nat) (hi : i < t.len) (hp : t.off + i = s.off + s.len) (ht : Fits h t) :
    (read (append spare h s [v]).1 t)[i]? = some v := by
  have h2 := ht.2
  have hat : arrayOf h t = arrayOf h s := by unfold arrayOf; rw [hst]
  rw [hat] at h2
  unfold append
  simp only [List.length_singleton]
  have hc : s.off + s.len + 1 ≤ (arrayOf h s).length := by omega
  rw [if_pos hc]
  have ha : arrayOf (h.set s.arr (writeAt (arrayOf h s) (s.off + s.len) [v])) t =
      writeAt (arrayOf h s) (s.off + s.len) [v] := by
    unfold arrayOf
    rw [hst, List.getElem?_set, if_pos rfl, if_pos hf.1]
    rfl
  rw [getElem?_read, ha, if_pos hi, getElem?_writeAt _ _ _ (by simpa using hc)]
  simp only [List.length_singleton]
  rw [if_pos (by omega), show t.off + i - (s.off + s.len) = 0 by omega]
  rfl

/-- C13 fails. Padding to the right beyond the truncation length destroys tokens, whenever there are
two overflowing parts: the first new token of the second part becomes the padding. -/
theorem C13_padding_violated (spare : List α) (v : α) (h : Heap α) (s : Slice) (hf : Fits h s)
    {maxLen stride target : Nat} (hs : stride < maxLen) (ht : maxLen < target)
    (hm : maxLen + (maxLen - stride) < s.len) :
    let r := truncate spare h s maxLen stride
    let p := padAll spare v target r.1 r.2.1 r.2.2
    ∃ q, p.2.2[1]? = some q ∧ (read p.1 q)[stride]? = some v ∧
      ∃ part, (windows (read h s) maxLen stride ((read h s).length - maxLen) 0)[1]? = some part ∧
        part[stride]? = (read h s)[maxLen + (maxLen - stride)]? := by
  rw [truncate_eq spare h s hf hs (by omega)]
  dsimp only
  obtain ⟨w1, -⟩ := wslices_spec s hs (s.len - maxLen) 0
  have hfp : ∀ p ∈ wslices s maxLen stride (s.len - maxLen) 0, Fits h p := by
    intro p hp
    obtain ⟨e1, e2⟩ := w1 p hp
    have h1 := hf.1
    have h2 := hf.2
    have : arrayOf h p = arrayOf h s := by unfold arrayOf; rw [e1]
    exact ⟨by rw [e1]; exact h1, by rw [this]; omega⟩
  obtain ⟨fuel, hfuel⟩ : ∃ fuel, s.len - maxLen = fuel + 2 := ⟨s.len - maxLen - 2, by omega⟩
  have hw : wslices s maxLen stride (s.len - maxLen) 0 =
      wslice s maxLen stride 0 :: wslice s maxLen stride 1 :: wslices s maxLen stride fuel 2 := by
    rw [hfuel, wslices, if_pos (by omega), wslices, if_pos (by simpa using hm)]
  have hwin : windows (read h s) maxLen stride ((read h s).length - maxLen) 0 =
      read h (wslice s maxLen stride 0) :: read h (wslice s maxLen stride 1) ::
        (wslices s maxLen stride fuel 2).map (read h) := by
    rw [← map_read_wslices hf hs, length_read hf, hw]; rfl
  rw [hw] at hfp ⊢
  have f0 := hfp _ List.mem_cons_self
  have f1 := hfp _ (List.mem_cons_of_mem _ List.mem_cons_self)
  have l0 : (wslice s maxLen stride 0).len = maxLen := by simp only [wslice]; omega
  have l1 : stride < (wslice s maxLen stride 1).len := by simp only [wslice]; omega
  have hpos : (wslice s maxLen stride 1).off + stride =
      (wslice s maxLen stride 0).off + (wslice s maxLen stride 0).len := by
    rw [l0]; simp only [wslice]; omega
  -- part 0 is padded
  have s0 : ∃ n, target - (wslice s maxLen stride 0).len = n + 1 := ⟨target - maxLen - 1, by rw [l0]; omega⟩
  obtain ⟨n0, hn0⟩ := s0
  generalize hA : pad1 spare v target h (wslice s maxLen stride 0) = A
  have a1 : (read A.1 (wslice s maxLen stride 1))[stride]? = some v := by
    rw [← hA, pad1, hn0, padLoop]
    exact (padLoop_keeps spare v _ _ n0 _ _ (append_one spare h _ v f0).1 (append_fits spare h _ _ v f1)
      (append_writes spare h _ (wslice s maxLen stride 1) v f0 rfl stride l1 hpos f1)).2
  have fA : ∀ t, Fits h t → Fits A.1 t := by
    intro t ht; rw [← hA]; exact padLoop_fits spare v t _ h _ ht
  -- part 1 is padded
  generalize hB : pad1 spare v target A.1 (wslice s maxLen stride 1) = B
  obtain ⟨b1, b2, _⟩ := padLoop_ok spare v (target - (wslice s maxLen stride 1).len) A.1 _ (fA _ f1)
  have b3 : Fits B.1 B.2 := by rw [← hB]; exact b1
  have b4 : (read B.1 B.2)[stride]? = some v := by
    rw [← hB]; unfold pad1; rw [b2, List.getElem?_append_left]
    · exact a1
    · rw [length_read (fA _ f1)]; exact l1
  have fB : ∀ t, Fits h t → Fits B.1 t := by
    intro t ht; rw [← hB]; exact padLoop_fits spare v t _ _ _ (fA t ht)
  -- the other parts and the encoding
  obtain ⟨c1, c2⟩ := padParts_keeps spare v target B.2 stride (wslices s maxLen stride fuel 2) B.1
    (fun p hp => fB p (hfp p (List.mem_cons_of_mem _ (List.mem_cons_of_mem _ hp)))) b3 b4
  generalize hC : padParts spare v target B.1 (wslices s maxLen stride fuel 2) = C at c1 c2
  have hk : Fits h ⟨s.arr, s.off, maxLen⟩ := by
    have h1 := hf.1
    have h2 := hf.2
    refine ⟨h1, ?_⟩
    have : arrayOf h ⟨s.arr, s.off, maxLen⟩ = arrayOf h s := rfl
    rw [this]; dsimp only; omega
  have fC : Fits C.1 ⟨s.arr, s.off, maxLen⟩ := by rw [← hC]; exact padParts_fits spare v target _ _ _ (fB _ hk)
  obtain ⟨d1, d2⟩ := padLoop_keeps spare v B.2 stride (target - maxLen) C.1 ⟨s.arr, s.off, maxLen⟩ fC c1 c2
  refine ⟨B.2, ?_, ?_, _, by rw [hwin]; rfl, ?_⟩
  · unfold padAll
    rw [if_neg (by dsimp only; omega)]
    simp only [padParts, hA, hB]
    rfl
  · unfold padAll
    rw [if_neg (by dsimp only; omega)]
    simp only [padParts, hA, hB, hC]
    exact d2
  · rw [getElem?_read, if_pos l1, getElem?_read, if_pos hm]
    have : arrayOf h (wslice s maxLen stride 1) = arrayOf h s := rfl
    rw [this, hpos, l0]
    congr 1
    simp only [wslice]; omega

/-- Six tokens, two per part: after padding to three with 0, tokens 3 and 5 are gone. -/
example :
    let h : Heap Nat := [[1, 2, 3, 4, 5, 6]]
    let s : Slice := ⟨0, 0, 6⟩
    let r := truncate [] h s 2 0
    let p := padAll [] 0 3 r.1 r.2.1 r.2.2
    r.2.2.map (read r.1) = [[3, 4], [5, 6]] ∧ read p.1 p.2.1 = [1, 2, 0] ∧
      p.2.2.map (read p.1) = [[0, 4, 0], [0, 6, 0]] := by decide

/-- Padding to the truncation length: the last part is padded, nothing is lost. -/
example :
    let h : Heap Nat := [[1, 2, 3, 4, 5, 6, 7, 8]]
    let s : Slice := ⟨0, 0, 7⟩
    let r := truncate [] h s 3 1
    let p := padAll [] 0 3 r.1 r.2.1 r.2.2
    Fits h s ∧ read p.1 p.2.1 = [1, 2, 3] ∧ p.2.2.map (read p.1) = [[3, 4, 5], [5, 6, 7]] := by
  refine ⟨⟨by decide, by decide⟩, by decide, by decide⟩

end Tok.Heap
