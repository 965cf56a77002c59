import Verif.Whole.Model
import Verif.PreTok.PropsPipeline
import Verif.Processor.PropsMaxLength

/-!
# What `EncodeSingleSequence` delivers, and the windows of a truncation
-/

namespace Tok.Whole

open Tok.Norm Tok.PreTok

theorem ofRows_arr_length (rows : List Row) (typeId : Int) (f : Field) :
    ((ofRows rows typeId).arr f).length = rows.length := by
  cases f <;> simp [ofRows, Encoding.arr]

theorem ofRows_aligned (rows : List Row) (typeId : Int) : (ofRows rows typeId).Aligned := by
  intro f
  rw [ofRows_arr_length]
  simp [ofRows]

theorem ofRows_rangesOk (rows : List Row) (typeId : Int) : RangesOk (ofRows rows typeId) :=
  rangesOk_leaf _ rfl rfl

theorem ofRows_delivered (rows : List Row) (typeId : Int) : Delivered (ofRows rows typeId) :=
  ⟨ofRows_aligned rows typeId, rfl, [], rfl, by simp [GoodRanges]⟩

theorem ofRows_plain (rows : List Row) (typeId : Int) (f : Field) :
    plainArr (ofRows rows typeId) f = (ofRows rows typeId).arr f := by
  cases f <;> simp [plainArr, ofRows, Encoding.arr]

/-! ### Every tokenizer delivers rows -/

theorem intoEncoding_ofRows {pt : PTS} {typeId word : Int} {ot : OffsetType} {e : Encoding}
    (h : pt.intoEncoding typeId word ot = .ok e) : ∃ rows, e = ofRows rows typeId := by
  unfold PTS.intoEncoding at h
  split at h
  · cases h; exact ⟨[], rfl⟩
  · split at h
    · cases h
    · obtain ⟨rows, _, h⟩ := Res.bind_eq_ok.mp h
      cases h
      exact ⟨rows, rfl⟩

theorem encodeOne_ofRows {t : Tk} {s : List UInt8} {typeId word : Int} {ot : OffsetType} {e : Encoding}
    (h : t.encodeOne s typeId word ot = .ok e) : ∃ rows, e = ofRows rows typeId := by
  unfold Tk.encodeOne at h
  obtain ⟨n, _, h⟩ := Res.bind_eq_ok.mp h
  obtain ⟨p, _, h⟩ := Res.bind_eq_ok.mp h
  obtain ⟨q, _, h⟩ := Res.bind_eq_ok.mp h
  exact intoEncoding_ofRows h

theorem encodeWords_ofRows {t : Tk} {typeId : Int} {ot : OffsetType} {ws : List (List UInt8)} :
    ∀ {i : Nat} {es : List Encoding}, t.encodeWords typeId ot ws i = .ok es →
      ∃ rss : List (List Row), es = rss.map (fun r => ofRows r typeId) := by
  induction ws with
  | nil => intro i es h; cases h; exact ⟨[], rfl⟩
  | cons w ws ih =>
    intro i es h
    simp only [Tk.encodeWords] at h
    obtain ⟨e, h1, h⟩ := Res.bind_eq_ok.mp h
    obtain ⟨rest, h2, h⟩ := Res.bind_eq_ok.mp h
    cases h
    obtain ⟨r, rfl⟩ := encodeOne_ofRows h1
    obtain ⟨rss, rfl⟩ := ih h2
    exact ⟨r :: rss, rfl⟩

/-- Whatever the tokenizer: an encoding of one sequence has rows, one type id, nothing special, nothing
masked, nothing overflowing. -/
theorem encodeSingle_ofRows {t : Tk} {input : InputSequence} {typeId : Int} {ot : OffsetType} {e : Encoding}
    (h : t.encodeSingle input typeId ot = .ok e) : ∃ rows, e = ofRows rows typeId := by
  unfold Tk.encodeSingle at h
  have hes : ∃ rss : List (List Row), Encoding.default.merge (rss.map (fun r => ofRows r typeId)) false = .ok e := by
    cases input with
    | raw s =>
      simp only at h
      obtain ⟨x, hx, h⟩ := Res.bind_eq_ok.mp h
      simp only [Res.bind_ok] at h
      obtain ⟨r, rfl⟩ := encodeOne_ofRows hx
      exact ⟨[r], h⟩
    | words ws =>
      simp only at h
      obtain ⟨es, hx, h⟩ := Res.bind_eq_ok.mp h
      obtain ⟨rss, rfl⟩ := encodeWords_ofRows hx
      exact ⟨rss, h⟩
  obtain ⟨rss, hes⟩ := hes
  rw [default_ofRows typeId, merge_ofRows] at hes
  cases hes
  exact ⟨_, rfl⟩

/-! ### Windows -/

/-- `ws` are the windows of `m` entries that start at the entries 0, `m - s`, `2 (m - s)`, … of `full`, as
many as it takes to reach the end. -/
structure Sliding (m s : Nat) (full : Encoding) (ws : List Encoding) : Prop where
  at' : ∀ (k : Nat) (x : Encoding), ws[k]? = some x → ∀ f, x.arr f = ((full.arr f).drop (k * (m - s))).take m
  some' : ws ≠ []
  covers : full.ids.length ≤ (ws.length - 1) * (m - s) + m
  needed : ∀ k, k + 1 < ws.length → k * (m - s) + m < full.ids.length

theorem truncateMut_sliding {e : Encoding} (ha : e.Aligned) (ho : e.overflowing = []) (m s : Nat) (hs : s < m) :
    ∃ e', e.truncateMut m s = .ok e' ∧ Sliding m s e (e' :: e'.overflowing) := by
  unfold Encoding.truncateMut
  by_cases hlen : m < e.ids.length
  · rw [truncate_closed e ha m s hs hlen]
    refine ⟨_, rfl, ?_, by simp, ?_, ?_⟩
    · intro k x hk f
      cases k with
      | zero =>
        simp only [List.getElem?_cons_zero, Option.some.injEq] at hk
        subst hk
        cases f <;> rfl
      | succ k =>
        simp only [List.getElem?_cons_succ, List.getElem?_map, Option.map_eq_some_iff] at hk
        obtain ⟨j, hj, rfl⟩ := hk
        obtain ⟨_, rfl⟩ := List.getElem?_eq_some_iff.mp hj
        simp only [List.getElem_range]
        exact windowEnc_arr _ _ _ _ _ _
    · simp only [List.length_cons, List.length_map, List.length_range, Nat.add_sub_cancel]
      have := ceilDiv_mul_ge (e.ids.length - m) (m - s) (by omega)
      omega
    · intro k hk
      simp only [List.length_cons, List.length_map, List.length_range, Nat.add_lt_add_iff_right] at hk
      have := (lt_ceilDiv_iff (e.ids.length - m) (m - s) k (by omega)).mp hk
      omega
  · rw [C01_truncate_noop e m s (by omega) (by omega) (by omega)]
    refine ⟨e, rfl, ?_, by simp, ?_, ?_⟩
    · intro k x hk f
      rw [ho] at hk
      cases k with
      | succ k => simp at hk
      | zero =>
        simp only [List.getElem?_cons_zero, Option.some.injEq] at hk
        subst hk
        rw [Nat.zero_mul, List.drop_zero, List.take_of_length_le]
        rw [ha f]; omega
    · rw [ho]; simp; omega
    · intro k hk; rw [ho] at hk; simp at hk

/-- Every entry is in a window, in all arrays at the same place. -/
theorem Sliding.mem {m s : Nat} {full : Encoding} {ws : List Encoding} (hs : s < m) (h : Sliding m s full ws)
    (i : Nat) (hi : i < full.ids.length) :
    ∃ x ∈ ws, ∃ j, j < m ∧ ∀ f, (x.arr f)[j]? = (full.arr f)[i]? := by
  have hpos : 0 < ws.length := List.length_pos_iff.mpr h.some'
  have hc := h.covers
  by_cases hk : i / (m - s) < ws.length
  · have hget := List.getElem?_eq_getElem hk
    have hd := Nat.div_add_mod i (m - s)
    have hm := Nat.mod_lt i (show 0 < m - s by omega)
    have hjm : i % (m - s) < m := by omega
    refine ⟨_, List.getElem_mem hk, i % (m - s), hjm, fun f => ?_⟩
    rw [h.at' _ _ hget f, List.getElem?_take_of_lt hjm, List.getElem?_drop, Nat.mul_comm, hd]
  · have hk' : ws.length - 1 < ws.length := by omega
    have hget := List.getElem?_eq_getElem hk'
    have hle : (ws.length - 1) * (m - s) ≤ i := by
      have h1 := Nat.div_mul_le_self i (m - s)
      have h2 : (ws.length - 1) * (m - s) ≤ i / (m - s) * (m - s) := Nat.mul_le_mul_right _ (by omega)
      omega
    have hjm : i - (ws.length - 1) * (m - s) < m := by omega
    refine ⟨_, List.getElem_mem hk', i - (ws.length - 1) * (m - s), hjm, fun f => ?_⟩
    rw [h.at' _ _ hget f, List.getElem?_take_of_lt hjm, List.getElem?_drop]
    congr 1
    omega

theorem Sliding.plain {m s : Nat} {rows : List Row} {typeId : Int} {ws : List Encoding}
    (h : Sliding m s (ofRows rows typeId) ws) {x : Encoding} (hx : x ∈ ws) (f : Field) : plainArr x f = x.arr f := by
  obtain ⟨k, hk⟩ := List.mem_iff_getElem?.mp hx
  have h1 := h.at' k x hk .ids
  have h2 := h.at' k x hk .specialMask
  have h3 := h.at' k x hk .attentionMask
  simp only [Encoding.arr, ofRows] at h1 h2 h3
  cases f <;> try rfl
  · simp only [plainArr, Encoding.arr, h1, h2]; simp
  · simp only [plainArr, Encoding.arr, h1, h3]; simp

theorem Sliding.short {m s : Nat} {full : Encoding} {ws : List Encoding}
    (h : Sliding m s full ws) {x : Encoding} (hx : x ∈ ws) (f : Field) : (x.arr f).length ≤ m := by
  obtain ⟨k, hk⟩ := List.mem_iff_getElem?.mp hx
  rw [h.at' k x hk f]
  simp only [List.length_take]
  omega

/-- One sequence is truncated to the budget by `Truncate`. -/
theorem truncateEncodings_single {e : Encoding} (ha : e.Aligned) (n stride : Int) (h0 : 0 < n)
    (hs : stride < n) (st : TruncStrategy) (hst : st ≠ .onlySecond) :
    ∃ e', e.truncateMut n stride = .ok e' ∧ truncateEncodings e none ⟨n, st, stride⟩ = .ok (e', none) := by
  obtain ⟨e', g1, g2⟩ := truncateMut_cut e ha n stride h0 hs
  refine ⟨e', g1, ?_⟩
  unfold truncateEncodings
  rw [if_neg (by simp; omega)]
  simp only
  split
  · next hlt =>
    unfold Encoding.truncateMut at g1
    rw [C01_truncate_noop e n stride hs (by omega) (by omega)] at g1
    cases g1
    rfl
  · next hge =>
    cases st with
    | longestFirst =>
      simp only
      obtain ⟨l1, l2⟩ := longestFirstLoop_spec ((e.ids.length : Int) - n).toNat e.ids.length 0
      have l3 : (longestFirstLoop ((e.ids.length : Int) - n).toNat e.ids.length 0).1 = n := by
        rw [l2]; split <;> omega
      rw [l3, g1]
      rfl
    | onlyFirst =>
      simp only [truncateTarget]
      rw [if_pos (by omega)]
      have : (e.ids.length : Int) - (e.ids.length - n) = n := by omega
      rw [this, g1]
      rfl
    | onlySecond => exact absurd rfl hst

end Tok.Whole
