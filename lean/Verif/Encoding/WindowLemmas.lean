import Verif.Encoding.TruncateLemmas

namespace Tok

theorem window_length (l : List α) (m step k : Nat) :
    (window l m step k).length = min m (l.length - k * step) := by
  simp [window]

theorem window_zero (l : List α) (m step : Nat) : window l m step 0 = l.take m := by
  simp [window]

theorem window_drop (l : List α) (m s k : Nat) (hs : s < m) :
    (window l m (m - s) (k + 1)).drop s = (l.drop (m + k * (m - s))).take (m - s) := by
  unfold window
  rw [List.drop_take, List.drop_drop]
  congr 2
  rw [Nat.add_mul]; omega

theorem window_prefix_sum (l : List α) (m s n : Nat) (hs : s < m) :
    window l m (m - s) 0 ++
      ((List.range n).map (fun j => (window l m (m - s) (j + 1)).drop s)).flatten
      = l.take (m + n * (m - s)) := by
  induction n with
  | zero => simp [window]
  | succ n ih =>
    rw [List.range_succ, List.map_append, List.flatten_append, ← List.append_assoc, ih]
    simp only [List.map_cons, List.map_nil, List.flatten_cons, List.flatten_nil, List.append_nil]
    rw [window_drop _ _ _ _ hs, Nat.add_mul, Nat.one_mul, ← Nat.add_assoc]
    exact List.take_add.symm

theorem ceilDiv_mul_ge (a b : Nat) (hb : 0 < b) : a ≤ ceilDiv a b * b := by
  unfold ceilDiv
  have h := Nat.div_add_mod (a + b - 1) b
  have h2 := Nat.mod_lt (a + b - 1) hb
  rw [Nat.mul_comm]
  generalize b * ((a + b - 1) / b) = x at *
  omega

theorem lt_ceilDiv_iff (a b k : Nat) (hb : 0 < b) : k < ceilDiv a b ↔ k * b < a := by
  unfold ceilDiv
  rw [Nat.lt_iff_add_one_le, Nat.le_div_iff_mul_le hb, Nat.add_mul]
  omega

theorem window_reassemble (l : List α) (m s : Nat) (hs : s < m) (n : Nat)
    (hn : l.length - m ≤ n * (m - s)) :
    window l m (m - s) 0 ++
      ((List.range n).map (fun j => (window l m (m - s) (j + 1)).drop s)).flatten = l := by
  rw [window_prefix_sum _ _ _ _ hs]
  apply List.take_of_length_le; omega

theorem window_overlap (l : List α) (m s k : Nat) (hs : s < m)
    (h : m + k * (m - s) < l.length) :
    (window l m (m - s) (k + 1)).take s
      = (window l m (m - s) k).drop ((window l m (m - s) k).length - s) := by
  rw [window_length]
  have : min m (l.length - k * (m - s)) = m := by omega
  rw [this]
  unfold window
  rw [List.take_take, List.drop_take, List.drop_drop]
  have e1 : min s m = s := by omega
  have e2 : m - (m - s) = s := by omega
  rw [e1, e2]
  congr 2
  rw [Nat.add_mul]; omega

end Tok
