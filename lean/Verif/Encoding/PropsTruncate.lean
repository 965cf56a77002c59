import Verif.Encoding.WindowLemmas

/-!
# C01, C02: truncation
-/

namespace Tok

/-- C01 (errors).  `Truncate` returns an error exactly for the documented bad
arguments. -/
theorem C01_truncate_error_iff (e : Encoding) (maxLen stride : Int) :
    e.truncate maxLen stride = .err ↔ (stride ≥ maxLen ∨ maxLen = 0) := by
  unfold Encoding.truncate
  constructor
  · intro h
    split at h
    · assumption
    · split at h
      · cases h
      · exfalso
        revert h
        unfold cut
        repeat (split <;> simp)
  · intro h; rw [if_pos h]

/-- C01 (nothing to do).  Good arguments and a long enough limit leave the
encoding as it is. -/
theorem C01_truncate_noop (e : Encoding) (maxLen stride : Int)
    (hs : stride < maxLen) (h0 : maxLen ≠ 0) (hlen : (e.ids.length : Int) ≤ maxLen) :
    e.truncate maxLen stride = .ok e := by
  unfold Encoding.truncate
  rw [if_neg (by omega), if_pos (by omega)]

example : (2 : Int) < 5 ∧ (5 : Int) ≠ 0 ∧
    ((⟨[1, 2], [], [], [], [], [], [], [], none⟩ : Encoding).ids.length : Int) ≤ 5 := by decide

/-- The shape of `cut` on an aligned encoding, for any stride (also negative). -/
theorem truncate_prefix_aux (e : Encoding) (ha : e.Aligned) (m : Nat) (stride : Int)
    (hs : stride < m) (h0 : 0 < m) (hlen : m < e.ids.length) :
    ∃ e', e.truncate m stride = .ok e' ∧ (∀ f, e'.arr f = (e.arr f).take m) ∧
      e'.ranges = e.ranges := by
  have h2 := ha .typeIds; have h3 := ha .tokens; have h4 := ha .offsets
  have h5 := ha .specialMask; have h6 := ha .attentionMask; have h7 := ha .words
  simp only [Encoding.arr] at h2 h3 h4 h5 h6 h7
  unfold Encoding.truncate
  rw [if_neg (by omega), if_neg (by omega)]
  rw [cut_ok _ _ (by omega), cut_ok _ _ (by omega), cut_ok _ _ (by omega), cut_ok _ _ (by omega),
    cut_ok _ _ (by omega), cut_ok _ _ (by omega), cut_ok _ _ (by omega)]
  simp only [Res.bind_ok]
  exact ⟨_, rfl, fun f => by cases f <;> rfl, rfl⟩

/-- C01 (prefix).  A truncation that shortens keeps exactly the first `maxLen`
entries of every per-token array and touches no sequence range. -/
theorem C01_truncate_prefix (e : Encoding) (ha : e.Aligned) (maxLen stride : Int)
    (hs : stride < maxLen) (h0 : 0 < maxLen) (hlen : maxLen < e.ids.length) :
    ∃ e', e.truncate maxLen stride = .ok e' ∧
      (∀ f, e'.arr f = (e.arr f).take maxLen.toNat) ∧ e'.ranges = e.ranges := by
  obtain ⟨m, rfl⟩ := Int.eq_ofNat_of_zero_le (Int.le_of_lt h0)
  simpa using truncate_prefix_aux e ha m stride hs (by omega) (by omega)

/-- The remaining arguments: a negative limit that passes the argument check
makes Go slice with a negative bound, a run-time panic. -/
theorem C01_truncate_negative_panics (e : Encoding) (maxLen stride : Int)
    (hs : stride < maxLen) (hneg : maxLen < 0) : e.truncate maxLen stride = .panic := by
  unfold Encoding.truncate
  rw [if_neg (by omega), if_neg (by omega)]
  have : cut e.ids maxLen = .panic := by unfold cut; rw [if_neg (by omega)]
  rw [this]; rfl

/-- A small encoding used in the examples. -/
def sampleEnc : Encoding :=
  { ids := [1, 2, 3, 4, 5], typeIds := [0, 0, 0, 0, 0],
    tokens := [['a'], ['b'], ['c'], ['d'], ['e']],
    offsets := [(0, 1), (1, 2), (2, 3), (3, 4), (4, 5)],
    specialMask := [0, 0, 0, 0, 0], attentionMask := [1, 1, 1, 1, 1],
    words := [0, 0, 1, 1, 2], overflowing := [], ranges := some [(0, [0, 1, 2, 3, 4])] }

theorem sampleEnc_aligned : sampleEnc.Aligned := by intro f; cases f <;> rfl

example : sampleEnc.Aligned ∧ (1 : Int) < 2 ∧ (0 : Int) < 2 ∧ (2 : Int) < sampleEnc.ids.length :=
  ⟨sampleEnc_aligned, by decide⟩

/-- C02.  The windows of a truncation: how many there are, that together with
the kept prefix they give back the original (dropping from each window the
`stride` tokens it shares with its predecessor), that the shared tokens are the
last `stride` tokens of the predecessor, and their lengths. -/
theorem C02_truncate_windows (e : Encoding) (ha : e.Aligned) (m s : Nat) (hs : s < m)
    (hlen : m < e.ids.length) :
    ∃ e', e.truncate m s = .ok e' ∧
      e'.overflowing.length = ceilDiv (e.ids.length - m) (m - s) ∧
      (∀ f : Field,
        e'.arr f ++ (e'.overflowing.map (fun p => (p.arr f).drop s)).flatten = e.arr f) ∧
      (∀ (k : Nat) (prev next : Encoding), (e' :: e'.overflowing)[k]? = some prev →
        (e' :: e'.overflowing)[k + 1]? = some next →
        ∀ f : Field, prev.arr f = (prev.arr f).take (m - s) ++ (next.arr f).take s) ∧
      (∀ (k : Nat) (p : Encoding), e'.overflowing[k]? = some p →
        p.Aligned ∧ p.overflowing = [] ∧ s < p.ids.length ∧ p.ids.length ≤ m ∧
        (k + 1 < e'.overflowing.length → p.ids.length = m)) := by
  refine ⟨_, truncate_closed e ha m s hs hlen, ?_, ?_, ?_, ?_⟩
  · simp
  · intro f
    have harr : Encoding.arr { windowEnc e m (m - s) 0 e.ranges with
        overflowing := (List.range (ceilDiv (e.ids.length - m) (m - s))).map
          (fun j => windowEnc e m (m - s) (j + 1) none) } f = window (e.arr f) m (m - s) 0 := by
      cases f <;> rfl
    rw [harr, List.map_map]
    have := window_reassemble (e.arr f) m s hs (ceilDiv (e.ids.length - m) (m - s))
      (by rw [ha f]; exact ceilDiv_mul_ge _ _ (by omega))
    refine Eq.trans ?_ this
    congr 3
    funext j
    exact congrArg (List.drop s) (windowEnc_arr _ _ _ _ _ _)
  · intro k prev next hp hn f
    simp only [List.getElem?_cons_succ, List.getElem?_map] at hn
    have hk : k < ceilDiv (e.ids.length - m) (m - s) := by
      refine Classical.byContradiction fun hc => ?_
      rw [List.getElem?_eq_none (by simpa using hc)] at hn
      simp at hn
    have hkl : m + k * (m - s) < e.ids.length := by
      have := (lt_ceilDiv_iff (e.ids.length - m) (m - s) k (by omega)).1 hk
      omega
    rw [List.getElem?_range hk] at hn
    simp only [Option.map_some, Option.some.injEq] at hn
    subst hn
    have hprev : ∀ f, prev.arr f = window (e.arr f) m (m - s) k := by
      cases k with
      | zero =>
        simp only [List.getElem?_cons_zero, Option.some.injEq] at hp
        subst hp
        intro f; cases f <;> rfl
      | succ k =>
        simp only [List.getElem?_cons_succ, List.getElem?_map] at hp
        rw [List.getElem?_range (by omega)] at hp
        simp only [Option.map_some, Option.some.injEq] at hp
        subst hp
        intro f; exact windowEnc_arr _ _ _ _ _ _
    rw [hprev, windowEnc_arr, window_overlap _ _ _ _ hs (by rw [ha f]; exact hkl), window_length]
    have e1 : min m ((e.arr f).length - k * (m - s)) - s = m - s := by rw [ha f]; omega
    rw [e1, List.take_append_drop]
  · intro k p hp
    simp only [List.getElem?_map] at hp
    have hk : k < ceilDiv (e.ids.length - m) (m - s) := by
      refine Classical.byContradiction fun hc => ?_
      rw [List.getElem?_eq_none (by simpa using hc)] at hp
      simp at hp
    rw [List.getElem?_range hk] at hp
    simp only [Option.map_some, Option.some.injEq] at hp
    subst hp
    have hkl := (lt_ceilDiv_iff (e.ids.length - m) (m - s) k (by omega)).1 hk
    have hids : ∀ f, ((windowEnc e m (m - s) (k + 1) none).arr f).length
        = min m (e.ids.length - (k + 1) * (m - s)) := by
      intro f; rw [windowEnc_arr, window_length, ha f]
    have hi := hids .ids
    simp only [Encoding.arr] at hi
    refine ⟨fun f => by rw [hids f, hi], rfl, ?_, ?_, ?_⟩
    · rw [hi, Nat.add_mul]; omega
    · rw [hi]; omega
    · intro hk2
      simp only [List.length_map, List.length_range] at hk2
      have := (lt_ceilDiv_iff (e.ids.length - m) (m - s) (k + 1) (by omega)).1 hk2
      rw [hi]; omega

/-- The hypotheses of C02 are met, with two windows. -/
example : ∃ e', sampleEnc.truncate 2 1 = .ok e' ∧ e'.overflowing.map (·.ids) = [[2, 3], [3, 4], [4, 5]] :=
  ⟨_, rfl, rfl⟩

end Tok
