import Verif.Encoding.Budget
import Verif.Encoding.PropsPad
import Verif.Encoding.PropsMerge

/-!
# C09, C10: truncation to a budget, batch padding
-/

namespace Tok

/-! ### C09 -/

/-- Number of tokens of an encoding and an optional pair. -/
def totalLen (e : Encoding) (pair : Option Encoding) : Nat :=
  e.ids.length + (match pair with | none => 0 | some p => p.ids.length)

/-- `e'` is `e` cut after its first `n` tokens (or `e` itself when not longer). -/
def CutTo (n : Nat) (e e' : Encoding) : Prop :=
  (∀ f : Field, e'.arr f = (e.arr f).take n) ∧ e'.ranges = e.ranges ∧
  (e.ids.length ≤ n → e' = e)

theorem CutTo.length {n : Nat} {e e' : Encoding} (h : CutTo n e e') :
    e'.ids.length = min n e.ids.length := by
  have := congrArg List.length (h.1 .ids)
  simpa using this

theorem CutTo.refl {n : Nat} {e : Encoding} (ha : e.Aligned) (h : e.ids.length ≤ n) :
    CutTo n e e := by
  refine ⟨fun f => ?_, rfl, fun _ => rfl⟩
  rw [List.take_of_length_le (by rw [ha f]; exact h)]

theorem truncateMut_cut (e : Encoding) (ha : e.Aligned) (n stride : Int) (h0 : 0 < n)
    (hs : stride < n) : ∃ e', e.truncateMut n stride = .ok e' ∧ CutTo n.toNat e e' := by
  unfold Encoding.truncateMut
  by_cases hlen : n < e.ids.length
  · obtain ⟨e', h1, h2, h3⟩ := C01_truncate_prefix e ha n stride hs h0 hlen
    exact ⟨e', by rw [h1], h2, h3, by omega⟩
  · rw [C01_truncate_noop e n stride hs (by omega) (by omega)]
    exact ⟨e, rfl, CutTo.refl ha (by omega)⟩

theorem truncateMut_err (e : Encoding) (n stride : Int) (h : stride ≥ n ∨ n = 0) :
    e.truncateMut n stride = .ok e := by
  unfold Encoding.truncateMut
  rw [(C01_truncate_error_iff e n stride).2 h]

theorem longestFirstLoop_spec (k : Nat) (a b : Int) :
    (longestFirstLoop k a b).2 = b - k ∧
    (longestFirstLoop k a b).1 = (if a > b then a - k else if (k : Int) ≤ b - a + 1 then a
      else a - (k - (b - a + 1))) := by
  induction k generalizing a b with
  | zero => simp [longestFirstLoop]; omega
  | succ k ih =>
    unfold longestFirstLoop
    obtain ⟨h1, h2⟩ := ih (if a > b then a - 1 else a) (b - 1)
    rw [h1, h2]
    constructor
    · omega
    · split <;> split <;> (try split) <;> (try split) <;> omega

/-- C09, the strategies that hit the budget exactly.  Missing: a pair under
`LongestFirst` in general (violated below), strides not below the cut length
(violated below).

* below or at the budget nothing changes (with the exception shown in
  `C09_budget_crash`);
* a single encoding under `LongestFirst` or `OnlyFirst`: exactly the budget;
* `OnlyFirst` / `OnlySecond` with a pair: only the named side shrinks. -/
theorem C09_budget_partial (e : Encoding) (ha : e.Aligned) (pair : Option Encoding)
    (hpa : ∀ p, pair = some p → p.Aligned) (L stride : Int) (hL : 0 < L) :
    -- enough room
    ((totalLen e pair : Int) < L → ∀ st,
      truncateEncodings e pair ⟨L, st, stride⟩ = .ok (e, pair)) ∧
    -- single encoding
    (L ≤ totalLen e pair → pair = none → stride < L →
      ∀ st, st ≠ .onlySecond → ∃ e', truncateEncodings e pair ⟨L, st, stride⟩ = .ok (e', none) ∧
        CutTo L.toNat e e' ∧ (totalLen e' none : Int) = L) ∧
    -- OnlyFirst with a pair
    (∀ p, pair = some p → L ≤ totalLen e pair → stride < L - p.ids.length →
      (p.ids.length : Int) < L →
      ∃ e', truncateEncodings e pair ⟨L, .onlyFirst, stride⟩ = .ok (e', some p) ∧
        CutTo (L - p.ids.length).toNat e e' ∧ (totalLen e' (some p) : Int) = L) ∧
    -- OnlySecond with a pair
    (∀ p, pair = some p → L ≤ totalLen e pair → stride < L - e.ids.length →
      (e.ids.length : Int) < L →
      ∃ p', truncateEncodings e pair ⟨L, .onlySecond, stride⟩ = .ok (e, some p') ∧
        CutTo (L - e.ids.length).toNat p p' ∧ (totalLen e (some p') : Int) = L) := by
  refine ⟨?_, ?_, ?_, ?_⟩
  · intro h st
    unfold truncateEncodings
    rw [if_neg (by simp; omega)]
    cases pair with
    | none => simp only [totalLen] at h; simp only; rw [if_pos (by omega)]
    | some p => simp only [totalLen] at h; simp only; rw [if_pos (by omega)]
  · rintro hle rfl hs st hst
    simp only [totalLen] at hle
    unfold truncateEncodings
    rw [if_neg (by simp; omega)]
    simp only
    rw [if_neg (by omega)]
    cases st with
    | longestFirst =>
      obtain ⟨h1, h2⟩ := longestFirstLoop_spec ((e.ids.length : Int) - L).toNat e.ids.length 0
      have h3 : (longestFirstLoop ((e.ids.length : Int) - L).toNat e.ids.length 0).1 = L := by
        rw [h2, if_pos (by omega)]; omega
      simp only [h3]
      obtain ⟨e', h4, h5⟩ := truncateMut_cut e ha L stride hL hs
      rw [h4]
      refine ⟨e', rfl, h5, ?_⟩
      have := h5.length
      simp only [totalLen]; omega
    | onlyFirst =>
      simp only [truncateTarget]
      rw [if_pos (by omega)]
      have : (e.ids.length : Int) - ((e.ids.length : Int) - L) = L := by omega
      rw [this]
      obtain ⟨e', h4, h5⟩ := truncateMut_cut e ha L stride hL hs
      rw [h4]
      refine ⟨e', rfl, h5, ?_⟩
      have := h5.length
      simp only [totalLen]; omega
    | onlySecond => exact absurd rfl hst
  · rintro p rfl hle hs hpl
    simp only [totalLen] at hle
    unfold truncateEncodings
    rw [if_neg (by simp; omega)]
    simp only
    rw [if_neg (by omega)]
    simp only [truncateTarget]
    rw [if_pos (by omega)]
    have : (e.ids.length : Int) - ((e.ids.length : Int) + p.ids.length - L) = L - p.ids.length := by
      omega
    rw [this]
    obtain ⟨e', h4, h5⟩ := truncateMut_cut e ha (L - p.ids.length) stride (by omega) hs
    rw [h4]
    refine ⟨e', rfl, h5, ?_⟩
    have := h5.length
    simp only [totalLen]; omega
  · rintro p rfl hle hs hpl
    simp only [totalLen] at hle
    unfold truncateEncodings
    rw [if_neg (by simp; omega)]
    simp only
    rw [if_neg (by omega)]
    simp only [truncateTarget]
    rw [if_pos (by omega)]
    have : (p.ids.length : Int) - ((e.ids.length : Int) + p.ids.length - L) = L - e.ids.length := by
      omega
    rw [this]
    obtain ⟨p', h4, h5⟩ := truncateMut_cut p (hpa p rfl) (L - e.ids.length) stride (by omega) hs
    rw [h4]
    refine ⟨p', rfl, h5, ?_⟩
    have := h5.length
    simp only [totalLen]; omega

/-- The hypotheses can be met: five tokens, budget three, stride one. -/
example : ∃ e', truncateEncodings sampleEnc none ⟨3, .longestFirst, 1⟩ = .ok (e', none) ∧
    e'.ids = [1, 2, 3] := ⟨_, rfl, rfl⟩

/-- C09, a pair under `LongestFirst`: the lengths the loop aims at, for every
pair of lengths.  The second side always pays one token per round, the first
side additionally whenever it is longer, so the result can fall short of the
budget but never exceeds it (as long as the stride stays below the targets). -/
theorem C09_longestFirst_pair_partial (e p : Encoding) (ha : e.Aligned) (hpa : p.Aligned)
    (L stride : Int) (hL : 0 < L) (hle : L ≤ totalLen e (some p)) (n1 n2 k : Int)
    (hn1 : n1 = e.ids.length) (hn2 : n2 = p.ids.length) (hk : k = n1 + n2 - L)
    (t1 : Int) (ht1 : t1 = if n1 > n2 then n1 - k else if k ≤ n2 - n1 + 1 then n1
      else n1 - (k - (n2 - n1 + 1)))
    (hs0 : 0 ≤ stride) (hs1 : stride < t1) (hs2 : stride < n2 - k) :
    ∃ e' p', truncateEncodings e (some p) ⟨L, .longestFirst, stride⟩ = .ok (e', some p') ∧
      CutTo t1.toNat e e' ∧ CutTo (n2 - k).toNat p p' ∧ (totalLen e' (some p') : Int) ≤ L ∧
      ((totalLen e' (some p') : Int) = L ↔ t1 = n1) := by
  simp only [totalLen] at hle
  unfold truncateEncodings
  rw [if_neg (by simp; omega)]
  simp only
  rw [if_neg (by omega)]
  obtain ⟨h1, h2⟩ := longestFirstLoop_spec ((e.ids.length : Int) + p.ids.length - L).toNat
    e.ids.length p.ids.length
  generalize hlf : longestFirstLoop ((e.ids.length : Int) + p.ids.length - L).toNat
    e.ids.length p.ids.length = lf at h1 h2
  obtain ⟨a, b⟩ := lf
  simp only at h1 h2 ⊢
  have ha' : a = t1 := by
    rw [h2, ht1]
    have : (((e.ids.length : Int) + p.ids.length - L).toNat : Int) = k := by omega
    rw [this, ← hn1, ← hn2]
  have hb' : b = n2 - k := by rw [h1]; omega
  subst ha' hb'
  obtain ⟨e', h4, h5⟩ := truncateMut_cut e ha a stride (by omega) hs1
  obtain ⟨p', h6, h7⟩ := truncateMut_cut p hpa (n2 - k) stride (by omega) hs2
  rw [h4, h6]
  have l1 := h5.length
  have l2 := h7.length
  have hk0 : 0 ≤ k := by omega
  refine ⟨e', p', rfl, h5, h7, ?_, ?_⟩
  · simp only [totalLen]
    have : a ≤ n1 := by rw [ht1]; split <;> (try split) <;> omega
    omega
  · simp only [totalLen]
    have : a ≤ n1 := by rw [ht1]; split <;> (try split) <;> omega
    omega

/-- The length `LongestFirst` aims at for the first of two sequences of `n1` and
`n2` tokens when `k` tokens have to go. -/
def firstTarget (n1 n2 k : Int) : Int :=
  if n1 > n2 then n1 - k else if k ≤ n2 - n1 + 1 then n1 else n1 - (k - (n2 - n1 + 1))

/-- C09, what `LongestFirst` does to every pair, whatever the lengths, the budget
and the stride: each side is cut to its target when the stride is below the
target, and left whole otherwise. -/
theorem C09_longestFirst_pair (e p : Encoding) (ha : e.Aligned) (hpa : p.Aligned)
    (L stride : Int) (hL : 0 < L) (hle : L ≤ totalLen e (some p)) (n1 n2 k : Int)
    (hn1 : n1 = e.ids.length) (hn2 : n2 = p.ids.length) (hk : k = n1 + n2 - L)
    (hs0 : 0 ≤ stride) :
    ∃ e' p', truncateEncodings e (some p) ⟨L, .longestFirst, stride⟩ = .ok (e', some p') ∧
      (if stride < firstTarget n1 n2 k then CutTo (firstTarget n1 n2 k).toNat e e' else e' = e) ∧
      (if stride < n2 - k then CutTo (n2 - k).toNat p p' else p' = p) ∧
      (totalLen e' (some p') : Int) =
        (if stride < firstTarget n1 n2 k then firstTarget n1 n2 k else n1) +
        (if stride < n2 - k then n2 - k else n2) := by
  simp only [totalLen] at hle
  unfold truncateEncodings
  rw [if_neg (by simp; omega)]
  simp only
  rw [if_neg (by omega)]
  obtain ⟨h1, h2⟩ := longestFirstLoop_spec ((e.ids.length : Int) + p.ids.length - L).toNat
    e.ids.length p.ids.length
  generalize hlf : longestFirstLoop ((e.ids.length : Int) + p.ids.length - L).toNat
    e.ids.length p.ids.length = lf at h1 h2
  obtain ⟨a, b⟩ := lf
  simp only at h1 h2 ⊢
  have ha' : a = firstTarget n1 n2 k := by
    rw [h2, firstTarget]
    have : (((e.ids.length : Int) + p.ids.length - L).toNat : Int) = k := by omega
    rw [this, ← hn1, ← hn2]
  have hb' : b = n2 - k := by rw [h1]; omega
  have hk0 : 0 ≤ k := by omega
  have hle1 : firstTarget n1 n2 k ≤ n1 := by
    unfold firstTarget; split <;> (try split) <;> omega
  rw [ha', hb']
  have key : ∀ (x : Encoding), x.Aligned → ∀ t : Int, t ≤ x.ids.length →
      ∃ x', x.truncateMut t stride = .ok x' ∧
        (if stride < t then CutTo t.toNat x x' else x' = x) ∧
        (x'.ids.length : Int) = if stride < t then t else x.ids.length := by
    intro x hx t ht
    by_cases h : stride < t
    · obtain ⟨x', h4, h5⟩ := truncateMut_cut x hx t stride (by omega) h
      refine ⟨x', h4, ?_, ?_⟩
      · rw [if_pos h]; exact h5
      · rw [if_pos h, h5.length]; omega
    · exact ⟨x, truncateMut_err x t stride (Or.inl (by omega)), by rw [if_neg h], by rw [if_neg h]⟩
  obtain ⟨e', c1, c2, c3⟩ := key e ha (firstTarget n1 n2 k) (by omega)
  obtain ⟨p', d1, d2, d3⟩ := key p hpa (n2 - k) (by omega)
  rw [c1, d1]
  refine ⟨e', p', rfl, c2, d2, ?_⟩
  rw [← hn1] at c3
  rw [← hn2] at d3
  rw [← c3, ← d3]
  simp [totalLen]

/-- C09 is violated for every pair whose first sequence is the longer one: both
sequences pay for every token that has to go, so the result is shorter than the
budget by as many tokens as had to go. -/
theorem C09_longestFirst_violated (e p : Encoding) (ha : e.Aligned) (hpa : p.Aligned)
    (L stride : Int) (hL : 0 < L) (hle : L < totalLen e (some p))
    (hlong : p.ids.length < e.ids.length) (hs0 : 0 ≤ stride)
    (hroom : stride < L - e.ids.length) :
    ∃ e' p', truncateEncodings e (some p) ⟨L, .longestFirst, stride⟩ = .ok (e', some p') ∧
      (totalLen e' (some p') : Int) = L - (totalLen e (some p) - L) ∧
      (totalLen e' (some p') : Int) < L := by
  obtain ⟨e', p', h1, -, -, h2⟩ := C09_longestFirst_pair e p ha hpa L stride hL (by omega) _ _ _
    rfl rfl rfl hs0
  refine ⟨e', p', h1, ?_⟩
  have hft : firstTarget e.ids.length p.ids.length
      ((e.ids.length : Int) + p.ids.length - L) = L - p.ids.length := by
    unfold firstTarget; rw [if_pos (by omega)]; omega
  simp only [hft] at h2
  rw [if_pos (by omega), if_pos (by omega)] at h2
  rw [h2]
  simp only [totalLen] at hle ⊢
  omega

example : ∃ e' p', truncateEncodings sampleEnc (some mergeSampleA) ⟨6, .longestFirst, 0⟩ =
    .ok (e', some p') ∧ totalLen e' (some p') = 5 := ⟨_, _, rfl, rfl⟩

/-- C09 is violated for every pair of equally long sequences with a budget of at
most one of them: the targets are zero or less, `Truncate` fails, its error is
dropped, and nothing is truncated at all. -/
theorem C09_longestFirst_over_budget_violated (e p : Encoding) (ha : e.Aligned) (hpa : p.Aligned)
    (L stride : Int) (hL : 0 < L) (hs0 : 0 ≤ stride) (hsame : e.ids.length = p.ids.length)
    (hsmall : L < e.ids.length) :
    truncateEncodings e (some p) ⟨L, .longestFirst, stride⟩ = .ok (e, some p) ∧
      L < totalLen e (some p) := by
  have hle : L < totalLen e (some p) := by simp only [totalLen]; omega
  obtain ⟨e', p', h1, h2, h3, -⟩ := C09_longestFirst_pair e p ha hpa L stride hL (by omega) _ _ _
    rfl rfl rfl hs0
  have hft : firstTarget e.ids.length p.ids.length
      ((e.ids.length : Int) + p.ids.length - L) ≤ 0 := by
    unfold firstTarget; rw [if_neg (by omega), if_neg (by omega)]; omega
  rw [if_neg (by omega)] at h2
  rw [if_neg (by omega)] at h3
  subst h2 h3
  exact ⟨h1, hle⟩

example : (4 : Int) < sampleEnc.ids.length := by decide

/-- C09 is violated for every encoding: a stride not below the budget makes
`TruncateEncodings` silently return the encoding untruncated. -/
theorem C09_stride_violated (e : Encoding) (L stride : Int) (hL : 0 < L) (hs : L ≤ stride) :
    truncateEncodings e none ⟨L, .longestFirst, stride⟩ = .ok (e, none) := by
  unfold truncateEncodings
  rw [if_neg (by simp; omega)]
  simp only
  split
  · rfl
  · next h =>
    obtain ⟨h1, h2⟩ := longestFirstLoop_spec ((e.ids.length : Int) - L).toNat e.ids.length 0
    have h3 : (longestFirstLoop ((e.ids.length : Int) - L).toNat e.ids.length 0).1 = L := by
      rw [h2, if_pos (by omega)]; omega
    simp only [h3]
    rw [truncateMut_err e L stride (Or.inl hs)]
    rfl

/-- C09 is violated: `OnlyFirst` ends the program (`log.Fatal`) when the first
sequence is not longer than what has to go; in particular when it is empty and
the pair fills the budget exactly, so that nothing has to go at all. -/
theorem C09_budget_crash_violated (e p : Encoding) (L stride : Int) (hL : 0 < L)
    (he : e.ids = []) (hp : (p.ids.length : Int) = L) :
    truncateEncodings e (some p) ⟨L, .onlyFirst, stride⟩ = .panic := by
  unfold truncateEncodings
  rw [if_neg (by simp; omega)]
  simp only [he, List.length_nil]
  rw [if_neg (by omega)]
  simp only [truncateTarget, he, List.length_nil]
  rw [if_neg (by omega)]
  rfl

/-- C09.  Exactly when the `Only…` strategies end the program. -/
theorem C09_only_fatal_iff (e : Encoding) (pair : Option Encoding) (L stride : Int) (hL : 0 < L)
    (hle : L ≤ totalLen e pair) (ha : e.Aligned)
    (hpa : ∀ p, pair = some p → p.Aligned) :
    (truncateEncodings e pair ⟨L, .onlyFirst, stride⟩ = .panic ↔
      (e.ids.length : Int) ≤ totalLen e pair - L) ∧
    (truncateEncodings e pair ⟨L, .onlySecond, stride⟩ = .panic ↔
      ∀ p, pair = some p → (p.ids.length : Int) ≤ totalLen e pair - L) := by
  have key : ∀ (t : Encoding), t.Aligned → ∀ k : Int,
      truncateTarget t k stride = .panic ↔ (t.ids.length : Int) ≤ k := by
    intro t ht k
    unfold truncateTarget
    split
    · next h =>
      constructor
      · intro hp
        by_cases hs : stride < (t.ids.length : Int) - k
        · obtain ⟨e', h1, -⟩ := truncateMut_cut t ht _ stride (by omega) hs
          rw [h1] at hp; cases hp
        · rw [truncateMut_err t _ stride (Or.inl (by omega))] at hp; cases hp
      · omega
    · next h => simp only [true_iff]; omega
  have hbind : ∀ (x : Res Encoding) (g : Encoding → Encoding × Option Encoding),
      (x >>= fun y => Res.ok (g y)) = .panic ↔ x = .panic := by
    intro x g; cases x <;> simp
  cases pair with
  | none =>
    simp only [totalLen] at hle ⊢
    constructor
    · unfold truncateEncodings
      rw [if_neg (by simp; omega)]
      simp only
      rw [if_neg (by omega), hbind, key e ha]
      omega
    · unfold truncateEncodings
      rw [if_neg (by simp; omega)]
      simp only
      rw [if_neg (by omega)]
      simp
  | some p =>
    simp only [totalLen] at hle ⊢
    constructor
    · unfold truncateEncodings
      rw [if_neg (by simp; omega)]
      simp only
      rw [if_neg (by omega), hbind, key e ha]
      omega
    · unfold truncateEncodings
      rw [if_neg (by simp; omega)]
      simp only
      rw [if_neg (by omega), hbind, key p (hpa p rfl)]
      simp

/-! ### C10 -/

theorem maxLenLoop_spec (m : Nat) (es : List Encoding) :
    m ≤ maxLenLoop m es ∧ (∀ e ∈ es, e.ids.length ≤ maxLenLoop m es) ∧
    (maxLenLoop m es = m ∨ ∃ e ∈ es, e.ids.length = maxLenLoop m es) := by
  induction es generalizing m with
  | nil => simp [maxLenLoop]
  | cons e es ih =>
    unfold maxLenLoop
    obtain ⟨h1, h2, h3⟩ := ih (if e.ids.length > m then e.ids.length else m)
    generalize maxLenLoop _ es = M at *
    have h4 : m ≤ M ∧ e.ids.length ≤ M := by split at h1 <;> omega
    refine ⟨h4.1, ?_, ?_⟩
    · intro x hx
      rcases List.mem_cons.1 hx with rfl | hx
      · exact h4.2
      · exact h2 x hx
    · rcases h3 with h3 | ⟨x, hx, h3⟩
      · split at h3
        · exact Or.inr ⟨e, by simp, h3.symm⟩
        · exact Or.inl h3
      · exact Or.inr ⟨x, by simp [hx], h3⟩

/-- `n` is the length of a longest encoding of the (non-empty) batch. -/
def IsLongest (batch : List Encoding) (n : Nat) : Prop :=
  (∃ e ∈ batch, e.ids.length = n) ∧ ∀ e ∈ batch, e.ids.length ≤ n

/-- C10.  Right-side batch padding to the longest: never fails, keeps order and
number, and every encoding is right-padded to the length of the longest (so all
have that length). -/
theorem C10_pad_batchLongest (batch : List Encoding) (hne : batch ≠ []) (n : Nat)
    (hn : IsLongest batch n) (padId padTypeId : Int) (padToken : Str) :
    ∃ out, padEncodings batch ⟨.batchLongest, .right, padId, padTypeId, padToken⟩ = .ok out ∧
      List.Forall₂ (fun e e' => RightPadded n padId padTypeId padToken e e' ∧
        e'.ids.length = n) batch out := by
  have hM : maxLenLoop 0 batch = n := by
    obtain ⟨h1, h2, h3⟩ := maxLenLoop_spec 0 batch
    obtain ⟨⟨x, hx, hxn⟩, hall⟩ := hn
    have := h2 x hx
    rcases h3 with h3 | ⟨y, hy, h3⟩
    · omega
    · have := hall y hy; omega
  unfold padEncodings
  rw [if_neg (by simpa using hne)]
  simp only [hM]
  obtain ⟨out, hout⟩ := mapRes_isOk (fun e : Encoding => e.pad n padId padTypeId padToken .right)
    batch (fun e _ => (C03_pad_right e n padId padTypeId padToken).imp (fun _ h => h.1))
  refine ⟨out, hout, ?_⟩
  rw [mapRes_eq_ok] at hout
  have hall := hn.2
  clear hn hne hM
  induction hout with
  | nil => exact .nil
  | @cons a b l m h _ ih =>
    refine .cons ?_ (ih (fun e he => hall e (by simp [he])))
    obtain ⟨e', h1, h2, -⟩ := C03_pad_right a n padId padTypeId padToken
    rw [h1] at h; cases h
    refine ⟨h2, ?_⟩
    have h3 := congrArg List.length (h2.1 .ids)
    simp only [Encoding.arr, List.length_append, List.length_replicate] at h3
    have := hall a (by simp)
    omega

example : IsLongest [sampleEnc, mergeSampleA] 5 :=
  ⟨⟨sampleEnc, by simp, rfl⟩, by simp [sampleEnc, mergeSampleA]⟩

/-- C10.  Padding to a fixed size: every encoding is right-padded to that size
and has `max size (its length)` tokens. -/
theorem C10_pad_fixed (batch : List Encoding) (n : Int) (padId padTypeId : Int) (padToken : Str) :
    ∃ out, padEncodings batch ⟨.fixed n, .right, padId, padTypeId, padToken⟩ = .ok out ∧
      List.Forall₂ (fun e e' => RightPadded n padId padTypeId padToken e e' ∧
        (e'.ids.length : Int) = max n e.ids.length) batch out := by
  unfold padEncodings
  split
  · next h =>
    rw [List.length_eq_zero_iff] at h
    subst h
    exact ⟨[], rfl, .nil⟩
  simp only
  obtain ⟨out, hout⟩ := mapRes_isOk (fun e : Encoding => e.pad n padId padTypeId padToken .right)
    batch (fun e _ => (C03_pad_right e n padId padTypeId padToken).imp (fun _ h => h.1))
  refine ⟨out, hout, ?_⟩
  rw [mapRes_eq_ok] at hout
  rename_i h; clear h
  induction hout with
  | nil => exact .nil
  | @cons a b l m h _ ih =>
    refine .cons ?_ ih
    obtain ⟨e', h1, h2, -⟩ := C03_pad_right a n padId padTypeId padToken
    rw [h1] at h; cases h
    refine ⟨h2, ?_⟩
    have h3 := congrArg List.length (h2.1 .ids)
    simp only [Encoding.arr, List.length_append, List.length_replicate] at h3
    omega

end Tok
