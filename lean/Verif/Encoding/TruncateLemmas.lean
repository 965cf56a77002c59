import Verif.Encoding.Spec

namespace Tok

theorem cut_ok (l : List α) (n : Nat) (h : n ≤ l.length) :
    cut l (n : Int) = .ok (l.take n, l.drop n) := by
  simp [cut, h]

theorem getCurrentPart_window (l : List α) (m s k : Nat) (hs : s < m)
    (hlen : m + k * (m - s) < l.length) :
    getCurrentPart (window l m (m - s) k) (l.drop m) ((m : Int) - s) k s
      = window l m (m - s) (k + 1) := by
  obtain ⟨size, rfl⟩ : ∃ size, m = s + size := ⟨m - s, by omega⟩
  have hsz : s + size - s = size := by omega
  rw [hsz] at hlen ⊢
  have hk : (k + 1) * size = k * size + size := by rw [Nat.add_mul]; omega
  have hwl : (window l (s + size) size k).length = s + size := by
    simp [window]; omega
  have hpos : 0 < size := by omega
  unfold getCurrentPart
  have e1 : ((s + size : Nat) : Int) - (s : Int) = (size : Int) := by omega
  rw [e1, hwl]
  have c1 : ¬ ((size : Int) ≤ 0 ∨ (k : Int) < 0 ∨ (s : Int) < 0) := by omega
  rw [if_neg c1]
  have c2 : ¬ (((s + size : Nat) : Int) < (s : Int)) := by omega
  simp only [if_neg c2]
  have e2 : (k : Int) * (size : Int) = ((k * size : Nat) : Int) := by push_cast; rfl
  have e3 : ((k : Int) + 1) * (size : Int) = ((k * size + size : Nat) : Int) := by
    rw [← hk]; push_cast; rfl
  rw [e2, e3]
  have c3 : ¬ (((k * size : Nat) : Int) ≥ ((l.drop (s + size)).length : Int)) := by
    simp only [List.length_drop]; omega
  rw [if_neg c3]
  simp only [Int.toNat_natCast]
  have hx : s + size - s = size := by omega
  rw [hx]
  unfold window
  rw [hk]
  generalize hA : k * size = A at *
  have hstop : (if ((A + size : Nat) : Int) > ((l.drop (s + size)).length : Int)
      then ((l.drop (s + size)).length : Int) else ((A + size : Nat) : Int)).toNat
      = min (A + size) (l.length - (s + size)) := by
    simp only [List.length_drop]
    split <;> omega
  rw [hstop]
  apply List.ext_getElem?
  intro i
  simp only [List.getElem?_append, List.getElem?_drop, List.getElem?_take, List.length_drop,
    List.length_take]
  have hm : min (s + size) (l.length - A) = s + size := by omega
  rw [hm]
  by_cases hi : i < s
  · have : s + size - size = s := by omega
    simp only [this, hi, if_true]
    have a1 : size + i < s + size := by omega
    have a2 : i < s + size := by omega
    simp only [a1, a2, if_true]
    congr 1; omega
  · have : s + size - size = s := by omega
    simp only [this, hi, if_false]
    by_cases h2 : i < s + size
    · simp only [h2, if_true]
      by_cases h3 : A + (i - s) < min (A + size) (l.length - (s + size))
      · simp only [h3, if_true]; congr 1; omega
      · simp only [h3, if_false]
        symm; apply List.getElem?_eq_none; omega
    · simp only [h2, if_false]
      have : ¬ A + (i - s) < min (A + size) (l.length - (s + size)) := by omega
      simp [this]

/-- The encoding whose arrays are windows number `k` of the arrays of `e`. -/
def windowEnc (e : Encoding) (m step k : Nat) (rg : Option (List (Int × Range))) : Encoding :=
  { ids := window e.ids m step k
    typeIds := window e.typeIds m step k
    tokens := window e.tokens m step k
    offsets := window e.offsets m step k
    specialMask := window e.specialMask m step k
    attentionMask := window e.attentionMask m step k
    words := window e.words m step k
    overflowing := []
    ranges := rg }

theorem windowEnc_arr (e : Encoding) (m step k : Nat) (rg) (f : Field) :
    (windowEnc e m step k rg).arr f = window (e.arr f) m step k := by
  cases f <;> rfl

/-- The entries from `m` on. -/
def dropEnc (e : Encoding) (m : Nat) : Encoding :=
  { ids := e.ids.drop m
    typeIds := e.typeIds.drop m
    tokens := e.tokens.drop m
    offsets := e.offsets.drop m
    specialMask := e.specialMask.drop m
    attentionMask := e.attentionMask.drop m
    words := e.words.drop m
    overflowing := []
    ranges := none }

theorem overflowPart_congr (p p' o : Encoding) (size k s : Int)
    (h : ∀ f, p.arr f = p'.arr f) : overflowPart p o size k s = overflowPart p' o size k s := by
  have h1 := h .ids; have h2 := h .typeIds; have h3 := h .tokens; have h4 := h .offsets
  have h5 := h .specialMask; have h6 := h .attentionMask; have h7 := h .words
  simp only [Encoding.arr] at h1 h2 h3 h4 h5 h6 h7
  simp [overflowPart, h1, h2, h3, h4, h5, h6, h7]

theorem overflowPart_window (e : Encoding) (ha : e.Aligned) (m s k : Nat) (hs : s < m) (rg)
    (hlen : m + k * (m - s) < e.ids.length) :
    overflowPart (windowEnc e m (m - s) k rg) (dropEnc e m) ((m : Int) - s) k s
      = windowEnc e m (m - s) (k + 1) none := by
  have h2 := ha .typeIds; have h3 := ha .tokens; have h4 := ha .offsets
  have h5 := ha .specialMask; have h6 := ha .attentionMask; have h7 := ha .words
  simp only [Encoding.arr] at h2 h3 h4 h5 h6 h7
  simp only [overflowPart, windowEnc, dropEnc]
  rw [getCurrentPart_window e.ids m s k hs hlen,
    getCurrentPart_window e.typeIds m s k hs (by omega),
    getCurrentPart_window e.tokens m s k hs (by omega),
    getCurrentPart_window e.offsets m s k hs (by omega),
    getCurrentPart_window e.specialMask m s k hs (by omega),
    getCurrentPart_window e.attentionMask m s k hs (by omega),
    getCurrentPart_window e.words m s k hs (by omega)]

theorem ceilDiv_sub (a b k : Nat) (hb : 0 < b) (h : b * k < a) :
    ceilDiv (a - b * k) b = ceilDiv (a - b * (k + 1)) b + 1 := by
  unfold ceilDiv
  rw [Nat.mul_succ]
  generalize b * k = c at *
  by_cases h2 : c + b ≤ a
  · have : a - c + b - 1 = (a - (c + b) + b - 1) + b := by omega
    rw [this, Nat.add_div_right _ hb]
  · have e1 : a - (c + b) = 0 := by omega
    rw [e1]
    have e2 : (0 + b - 1) / b = 0 := Nat.div_eq_of_lt (by omega)
    rw [e2]
    have e3 : a - c + b - 1 = (a - c - 1) + b := by omega
    rw [e3, Nat.add_div_right _ hb, Nat.div_eq_of_lt (by omega)]

theorem truncateLoop_window (e : Encoding) (ha : e.Aligned) (m s : Nat) (hs : s < m)
    (fuel k : Nat) (rg) (prev : Encoding)
    (hprev : ∀ f, prev.arr f = (windowEnc e m (m - s) k rg).arr f)
    (hfuel : e.ids.length - m ≤ fuel + k) :
    truncateLoop (dropEnc e m) ((m : Int) - s) s fuel k prev
      = (List.range (ceilDiv (e.ids.length - m - (m - s) * k) (m - s))).map
          (fun j => windowEnc e m (m - s) (k + 1 + j) none) := by
  induction fuel generalizing k rg prev with
  | zero =>
    have hk : e.ids.length - m ≤ k := by omega
    have h1 : k ≤ (m - s) * k := Nat.le_mul_of_pos_left _ (by omega)
    have : e.ids.length - m - (m - s) * k = 0 := by omega
    rw [this]
    have : ceilDiv 0 (m - s) = 0 := by
      unfold ceilDiv; exact Nat.div_eq_of_lt (by omega)
    simp [truncateLoop, this]
  | succ fuel ih =>
    unfold truncateLoop
    have hl : (dropEnc e m).ids.length = e.ids.length - m := by simp [dropEnc]
    rw [hl]
    have e0 : ((m : Int) - s) * k = (((m - s) * k : Nat) : Int) := by
      push_cast [Nat.le_of_lt hs]; rfl
    rw [e0]
    by_cases hc : (m - s) * k < e.ids.length - m
    · rw [if_pos (by omega)]
      have hlen : m + k * (m - s) < e.ids.length := by rw [Nat.mul_comm k]; omega
      rw [overflowPart_congr _ _ _ _ _ _ hprev, overflowPart_window e ha m s k hs rg hlen]
      rw [ceilDiv_sub _ _ _ (by omega) hc, List.range_succ_eq_map]
      simp only [List.map_cons, List.map_map, Nat.add_zero]
      congr 1
      have := ih (k + 1) none (windowEnc e m (m - s) (k + 1) none) (fun f => rfl) (by omega)
      have ek : ((k : Int) + 1) = ((k + 1 : Nat) : Int) := by omega
      rw [ek, this]
      apply List.map_congr_left
      intro j _
      simp only [Function.comp]
      congr 1; omega
    · rw [if_neg (by omega)]
      have : e.ids.length - m - (m - s) * k = 0 := by omega
      rw [this]
      have : ceilDiv 0 (m - s) = 0 := by
        unfold ceilDiv; exact Nat.div_eq_of_lt (by omega)
      simp [this]

/-- Closed form of a truncation that shortens. -/
theorem truncate_closed (e : Encoding) (ha : e.Aligned) (m s : Nat) (hs : s < m)
    (hlen : m < e.ids.length) :
    e.truncate m s = .ok
      { windowEnc e m (m - s) 0 e.ranges with
        overflowing := (List.range (ceilDiv (e.ids.length - m) (m - s))).map
          (fun j => windowEnc e m (m - s) (j + 1) none) } := by
  have h2 := ha .typeIds; have h3 := ha .tokens; have h4 := ha .offsets
  have h5 := ha .specialMask; have h6 := ha .attentionMask; have h7 := ha .words
  simp only [Encoding.arr] at h2 h3 h4 h5 h6 h7
  unfold Encoding.truncate
  rw [if_neg (by omega), if_neg (by omega)]
  rw [cut_ok _ _ (by omega), cut_ok _ _ (by omega), cut_ok _ _ (by omega), cut_ok _ _ (by omega),
    cut_ok _ _ (by omega), cut_ok _ _ (by omega), cut_ok _ _ (by omega)]
  simp only [Res.bind_ok]
  have := truncateLoop_window e ha m s hs (e.ids.drop m).length 0 e.ranges
    { e with ids := e.ids.take m, typeIds := e.typeIds.take m, tokens := e.tokens.take m,
             offsets := e.offsets.take m, specialMask := e.specialMask.take m,
             attentionMask := e.attentionMask.take m, words := e.words.take m }
    (by intro f; cases f <;> simp [windowEnc, window]) (by simp)
  simp only [dropEnc] at this
  erw [this]
  simp only [windowEnc, window, Nat.zero_mul, List.drop_zero, Nat.mul_zero, Nat.sub_zero,
    Nat.zero_add, Nat.add_comm 1]

end Tok
