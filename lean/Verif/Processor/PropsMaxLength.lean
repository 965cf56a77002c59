import Verif.Encoding.PropsBudget
import Verif.Processor.PropsTemplate

/-!
# C25: the encoded length respects the configured maximum
-/

namespace Tok

/-- An encoding as the tokenization step delivers it to `PostProcess`: aligned
arrays, nothing overflowing, a (possibly empty) map of proper ranges. -/
def Delivered (e : Encoding) : Prop :=
  e.Aligned ∧ e.overflowing = [] ∧ ∃ l, e.ranges = some l ∧ GoodRanges l

/-- What a truncation may turn it into. -/
def Usable (e : Encoding) : Prop :=
  e.Aligned ∧ (∀ o ∈ e.overflowing, o.Aligned) ∧ Fresh e

theorem Delivered.usable {e : Encoding} (h : Delivered e) : Usable e := by
  obtain ⟨h1, h2, h3⟩ := h
  refine ⟨h1, by rw [h2]; simp, h3, by rw [h2]; simp⟩

theorem CutTo.usable {e e' : Encoding} (h : Delivered e) (n stride : Int) (h0 : 0 < n)
    (hs0 : 0 ≤ stride) (hs : stride < n) (ht : e.truncateMut n stride = .ok e') : Usable e' := by
  obtain ⟨h1, h2, l, h3, h4⟩ := h
  unfold Encoding.truncateMut at ht
  by_cases hlen : n < e.ids.length
  · obtain ⟨m, rfl⟩ := Int.eq_ofNat_of_zero_le (Int.le_of_lt h0)
    obtain ⟨s, rfl⟩ := Int.eq_ofNat_of_zero_le hs0
    obtain ⟨a, g1, g2, g3⟩ := C01_truncate_prefix e h1 m s hs h0 hlen
    obtain ⟨b, k1, -, -, -, k2⟩ := C02_truncate_windows e h1 m s (by omega) (by omega)
    have hcl := truncate_closed e h1 m s (by omega) (by omega)
    rw [g1] at k1; cases k1
    rw [g1] at ht; cases ht
    rw [g1] at hcl
    have hov := congrArg Encoding.overflowing (Res.ok.inj hcl)
    simp only at hov
    have hpart : ∀ o ∈ e'.overflowing, o.Aligned ∧ o.overflowing = [] ∧ o.ids ≠ [] ∧
        o.ranges = none := by
      intro o ho
      obtain ⟨k, hk⟩ := List.mem_iff_getElem?.1 ho
      obtain ⟨c1, c2, c3, -⟩ := k2 k o hk
      refine ⟨c1, c2, by intro hc; simp [hc] at c3, ?_⟩
      rw [hov] at ho
      obtain ⟨j, -, rfl⟩ := List.mem_map.1 ho
      rfl
    refine ⟨?_, fun o ho => (hpart o ho).1, ⟨l, by rw [g3, h3], h4⟩, ?_⟩
    · intro f
      have := g2 .ids
      simp only [Encoding.arr] at this
      rw [g2 f, this, List.length_take, List.length_take, h1 f]
    · intro o ho
      obtain ⟨-, c2, c3, c4⟩ := hpart o ho
      exact ⟨by rw [c2]; simp, Or.inr ⟨c4, c3⟩⟩
  · rw [C01_truncate_noop e n stride hs (by omega) (by omega)] at ht
    cases ht
    exact Delivered.usable ⟨h1, h2, l, h3, h4⟩

/-- The processor adds exactly the announced number of tokens. -/
def AddsExactly (p : PostProcessor) : Prop :=
  ∀ (e : Encoding) (pair : Option Encoding), Usable e → (∀ q, pair = some q → Usable q) →
    ∃ r, p.process e pair true = .ok (some r) ∧
      r.ids.length = totalLen e pair + p.addedTokens pair.isSome

/-- BERT, RoBERTa (with `trimOffsets`) and templates that use each given
sequence once add exactly the announced tokens. -/
theorem C25_processors_add_exactly :
    (∀ bp : Bert, AddsExactly bp.toProcessor) ∧
    (∀ rp : Roberta, rp.trimOffsets = true → AddsExactly rp.toProcessor) ∧
    (∀ tp : TemplateProc,
      (∀ isPair, TemplateFits tp.tab (tp.chosen isPair) isPair true) →
      (∀ e pair, usedLen e pair (tp.chosen pair.isSome) = totalLen e pair) →
      (∀ isPair, tp.chosen isPair ≠ []) →
      AddsExactly tp.toProcessor) := by
  refine ⟨?_, ?_, ?_⟩
  · intro bp e pair _ _
    cases pair with
    | none =>
      obtain ⟨r, h1, -, -, h2⟩ := C22_bert_single bp e
      exact ⟨r, h1, h2⟩
    | some p =>
      obtain ⟨r, h1, -, -, -, h2⟩ := C22_bert_pair bp e p
      exact ⟨r, h1, h2⟩
  · intro rp hrp e pair he hp
    cases pair with
    | none =>
      obtain ⟨t, r, -, h1, -, -, h2⟩ := C23_roberta_single_partial rp hrp e he.1 he.2.1
      exact ⟨r, h1, h2⟩
    | some p =>
      obtain ⟨t, u, r, -, -, h1, -, h2⟩ := C23_roberta_pair_partial rp hrp e p he.1 he.2.1
        (hp p rfl).1 (hp p rfl).2.1
      exact ⟨r, h1, h2⟩
  · intro tp hfit hused hne e pair he hp
    obtain ⟨r, h1, h2⟩ := C24_template_length tp e pair true he.2.2 (fun p h => (hp p h).2.2)
      (hfit _) (Or.inr ⟨rfl, hne _⟩)
    exact ⟨r, h1, by rw [h2, hused]; rfl⟩

/-- The hypotheses on templates are met by `[CLS] $A [SEP] $B:1 [SEP]:1`. -/
example : AddsExactly sampleTemplate.toProcessor := by
  refine C25_processors_add_exactly.2.2 _ ?_ ?_ ?_
  · intro isPair
    refine ⟨?_, ?_⟩
    · intro ty h
      cases isPair with
      | true => rfl
      | false => simp [TemplateProc.chosen, sampleTemplate] at h
    · intro _ id ty h
      have : id = ['C'] ∨ id = ['S'] := by
        cases isPair <;> simp [TemplateProc.chosen, sampleTemplate] at h <;> grind
      rcases this with rfl | rfl <;> simp [sampleTemplate]
  · intro e pair
    cases pair <;> simp [TemplateProc.chosen, sampleTemplate, usedLen, totalLen]
  · intro isPair; cases isPair <;> simp [TemplateProc.chosen, sampleTemplate]

theorem postProcess_of_truncated {proc : PostProcessor} (hx : AddsExactly proc) {e : Encoding}
    {pair : Option Encoding} {L stride : Int} {st : TruncStrategy}
    {e' : Encoding} {pair' : Option Encoding}
    (ht : truncateEncodings e pair ⟨L - proc.addedTokens pair.isSome, st, stride⟩ = .ok (e', pair'))
    (hsome : pair'.isSome = pair.isSome)
    (he' : Usable e') (hp' : ∀ q, pair' = some q → Usable q) :
    ∃ r, postProcess (some ⟨L, st, stride⟩) (some proc) none e pair true = .ok (some r) ∧
      (r.ids.length : Int) = totalLen e' pair' + proc.addedTokens pair.isSome := by
  obtain ⟨r, h1, h2⟩ := hx e' pair' he' hp'
  refine ⟨r, ?_, by rw [h2, hsome]; simp⟩
  have : postTruncate (some ⟨L, st, stride⟩) (some proc) e pair true = .ok (e', pair') := by
    unfold postTruncate
    simp only
    split
    · exact ht
    · next h =>
      have h0 : (proc.addedTokens pair.isSome : Int) = 0 := by
        simp only [true_and, gt_iff_lt, Int.natCast_pos] at h; omega
      rw [h0, Int.sub_zero] at ht
      exact ht
  unfold postProcess
  rw [this]
  simp only [Res.bind_ok]
  rw [h1]
  rfl

/-- C25, partial, one sequence.  Missing: strides that leave no room (the claim
is then false, see `C25_stride_violated`) and `OnlySecond` (which ends the
program without a pair).  At most `L` tokens, and exactly `L` as soon as the
input fills the budget. -/
theorem C25_single_partial (proc : PostProcessor) (hx : AddsExactly proc) (e : Encoding)
    (he : Delivered e) (L stride : Int) (st : TruncStrategy) (hst : st ≠ .onlySecond)
    (hL : (proc.addedTokens false : Int) < L) (hs0 : 0 ≤ stride)
    (hs : stride < L - proc.addedTokens false) :
    ∃ r, postProcess (some ⟨L, st, stride⟩) (some proc) none e none true = .ok (some r) ∧
      (r.ids.length : Int) = min L (e.ids.length + proc.addedTokens false) := by
  have hb := C09_budget_partial e he.1 none (by simp) (L - proc.addedTokens false) stride (by omega)
  by_cases hroom : (totalLen e none : Int) < L - proc.addedTokens false
  · obtain ⟨r, h1, h2⟩ := postProcess_of_truncated hx (L := L) (pair := none)
      (hb.1 hroom st) rfl he.usable (by simp)
    refine ⟨r, h1, ?_⟩
    rw [h2]
    simp only [totalLen, Nat.add_zero, Option.isSome_none] at hroom ⊢
    omega
  · obtain ⟨e', h1, h2, h3⟩ := hb.2.1 (by omega) rfl hs st hst
    have hus : Usable e' := by
      -- the truncation is a call of `Truncate` with the budget
      have hcall : e.truncateMut (L - proc.addedTokens false) stride = .ok e' := by
        obtain ⟨e'', g1, g2⟩ := truncateMut_cut e he.1 (L - proc.addedTokens false) stride
          (by omega) hs
        simp only [totalLen, Nat.add_zero] at hroom
        unfold truncateEncodings at h1
        rw [if_neg (by simp; omega)] at h1
        simp only at h1
        rw [if_neg (by omega)] at h1
        cases st with
        | longestFirst =>
          simp only at h1
          obtain ⟨l1, l2⟩ := longestFirstLoop_spec
            ((e.ids.length : Int) - (L - proc.addedTokens false)).toNat e.ids.length 0
          have l3 : (longestFirstLoop ((e.ids.length : Int) -
              (L - proc.addedTokens false)).toNat e.ids.length 0).1
              = L - proc.addedTokens false := by rw [l2, if_pos (by omega)]; omega
          rw [l3, g1] at h1
          simp only [Res.bind_ok, Res.ok.injEq, Prod.mk.injEq, and_true] at h1
          rw [g1, h1]
        | onlyFirst =>
          simp only [truncateTarget] at h1
          rw [if_pos (by omega)] at h1
          have : (e.ids.length : Int) - (e.ids.length - (L - proc.addedTokens false))
              = L - proc.addedTokens false := by omega
          rw [this, g1] at h1
          simp only [Res.bind_ok, Res.ok.injEq, Prod.mk.injEq, and_true] at h1
          rw [g1, h1]
        | onlySecond => exact absurd rfl hst
      exact CutTo.usable he _ stride (by omega) hs0 hs hcall
    obtain ⟨r, k1, k2⟩ := postProcess_of_truncated hx (L := L) (pair := none) h1 rfl hus (by simp)
    refine ⟨r, k1, ?_⟩
    rw [k2, h3]
    simp only [totalLen, Nat.add_zero, Option.isSome_none] at hroom ⊢
    omega

theorem truncateTarget_usable {e e' : Encoding} (he : Delivered e) (k stride : Int)
    (_h0 : 0 ≤ k) (hs0 : 0 ≤ stride) (hs : stride < e.ids.length - k)
    (h : truncateTarget e k stride = .ok e') : Usable e' := by
  unfold truncateTarget at h
  rw [if_pos (by omega)] at h
  exact CutTo.usable he _ stride (by omega) hs0 hs h

/-- C25, partial, pairs cut on one side.  Missing: the cases in which the side
to cut is too short (the program ends) or the stride leaves no room. -/
theorem C25_pair_only_partial (proc : PostProcessor) (hx : AddsExactly proc) (e p : Encoding)
    (he : Delivered e) (hp : Delivered p) (L stride : Int) (hs0 : 0 ≤ stride) :
    (stride < L - proc.addedTokens true - p.ids.length →
      ∃ r, postProcess (some ⟨L, .onlyFirst, stride⟩) (some proc) none e (some p) true
          = .ok (some r) ∧
        (r.ids.length : Int) = min L (e.ids.length + p.ids.length + proc.addedTokens true)) ∧
    (stride < L - proc.addedTokens true - e.ids.length →
      ∃ r, postProcess (some ⟨L, .onlySecond, stride⟩) (some proc) none e (some p) true
          = .ok (some r) ∧
        (r.ids.length : Int) = min L (e.ids.length + p.ids.length + proc.addedTokens true)) := by
  constructor
  · intro hs
    have hb := C09_budget_partial e he.1 (some p) (by rintro _ ⟨⟩; exact hp.1)
      (L - proc.addedTokens true) stride (by omega)
    by_cases hroom : (totalLen e (some p) : Int) < L - proc.addedTokens true
    · obtain ⟨r, h1, h2⟩ := postProcess_of_truncated hx (L := L) (pair := some p)
        (hb.1 hroom .onlyFirst) rfl he.usable (by rintro _ ⟨⟩; exact hp.usable)
      refine ⟨r, h1, ?_⟩
      rw [h2]
      simp only [totalLen, Option.isSome_some] at hroom ⊢
      omega
    · obtain ⟨e', h1, h2, h3⟩ := hb.2.2.1 p rfl (by omega) hs (by omega)
      have hus : Usable e' := by
        simp only [totalLen] at hroom
        have h1' := h1
        unfold truncateEncodings at h1'
        rw [if_neg (by simp; omega)] at h1'
        simp only at h1'
        rw [if_neg (by omega), Res.bind_eq_ok] at h1'
        obtain ⟨x, g1, g2⟩ := h1'
        cases g2
        exact truncateTarget_usable he _ stride (by omega) hs0 (by omega) g1
      obtain ⟨r, k1, k2⟩ := postProcess_of_truncated hx (L := L) (pair := some p) h1 rfl hus
        (by rintro _ ⟨⟩; exact hp.usable)
      refine ⟨r, k1, ?_⟩
      rw [k2, h3]
      simp only [totalLen, Option.isSome_some] at hroom ⊢
      omega
  · intro hs
    have hb := C09_budget_partial e he.1 (some p) (by rintro _ ⟨⟩; exact hp.1)
      (L - proc.addedTokens true) stride (by omega)
    by_cases hroom : (totalLen e (some p) : Int) < L - proc.addedTokens true
    · obtain ⟨r, h1, h2⟩ := postProcess_of_truncated hx (L := L) (pair := some p)
        (hb.1 hroom .onlySecond) rfl he.usable (by rintro _ ⟨⟩; exact hp.usable)
      refine ⟨r, h1, ?_⟩
      rw [h2]
      simp only [totalLen, Option.isSome_some] at hroom ⊢
      omega
    · obtain ⟨p', h1, h2, h3⟩ := hb.2.2.2 p rfl (by omega) hs (by omega)
      have hus : Usable p' := by
        simp only [totalLen] at hroom
        have h1' := h1
        unfold truncateEncodings at h1'
        rw [if_neg (by simp; omega)] at h1'
        simp only at h1'
        rw [if_neg (by omega), Res.bind_eq_ok] at h1'
        obtain ⟨x, g1, g2⟩ := h1'
        cases g2
        exact truncateTarget_usable hp _ stride (by omega) hs0 (by omega) g1
      obtain ⟨r, k1, k2⟩ := postProcess_of_truncated hx (L := L) (pair := some p) h1 rfl he.usable
        (by rintro _ ⟨⟩; exact hus)
      refine ⟨r, k1, ?_⟩
      rw [k2, h3]
      simp only [totalLen, Option.isSome_some] at hroom ⊢
      omega

/-- C25 is violated by every input when the stride does not fit under the
budget left after the special tokens: the encoding is not truncated at all. -/
theorem C25_stride_violated (bp : Bert) (e : Encoding) (L stride : Int)
    (hL : 2 < L) (hs : L - 2 ≤ stride) (hlong : L < e.ids.length + 2) :
    ∃ r, postProcess (some ⟨L, .longestFirst, stride⟩) (some bp.toProcessor) none e none true
        = .ok (some r) ∧ (r.ids.length : Int) = e.ids.length + 2 ∧ L < r.ids.length := by
  obtain ⟨r, h1, -, -, h2⟩ := C22_bert_single bp e
  have ht := C09_stride_violated e (L - 2) stride (by omega) hs
  have hadd : bp.addedTokens false = 2 := rfl
  refine ⟨r, ?_, by rw [h2, hadd]; omega, by rw [h2, hadd]; omega⟩
  unfold postProcess postTruncate
  simp only [Bert.toProcessor, Option.isSome_none, hadd]
  rw [if_pos (by decide)]
  show (do
    let __discr ← truncateEncodings e none ⟨L - 2, .longestFirst, stride⟩
    _) = _
  rw [ht]
  simp only [Res.bind_ok]
  rw [h1]
  rfl

/-- C25 is violated for every input when the maximum equals the number of added
tokens: a remaining budget of 0 counts as "no truncation". -/
theorem C25_zero_budget_violated (bp : Bert) (e : Encoding) (st : TruncStrategy) (stride : Int) :
    ∃ r, postProcess (some ⟨2, st, stride⟩) (some bp.toProcessor) none e none true
        = .ok (some r) ∧ r.ids.length = e.ids.length + 2 := by
  obtain ⟨r, h1, -, -, h2⟩ := C22_bert_single bp e
  refine ⟨r, ?_, h2⟩
  have : truncateEncodings e none ⟨(2 : Int) - (bp.addedTokens false : Nat), st, stride⟩
      = .ok (e, none) := by unfold truncateEncodings; rfl
  unfold postProcess postTruncate
  simp only [Bert.toProcessor, Option.isSome_none]
  rw [if_pos ⟨trivial, by simp [Bert.addedTokens]⟩, this]
  simp only [Res.bind_ok]
  rw [h1]
  rfl

/-- C25 is violated for pairs with `LongestFirst` (the default strategy): a pair
of five and five tokens with maximum 7 comes out of BERT processing with 13. -/
theorem C25_longestFirst_violated (bp : Bert) :
    ∃ r, postProcess (some ⟨7, .longestFirst, 0⟩) (some bp.toProcessor) none sampleEnc
        (some sampleEnc) true = .ok (some r) ∧ r.ids.length = 13 := by
  obtain ⟨r, h1, -, -, -, h2⟩ := C22_bert_pair bp sampleEnc sampleEnc
  refine ⟨r, ?_, h2⟩
  have : truncateEncodings sampleEnc (some sampleEnc)
      ⟨(7 : Int) - (bp.addedTokens true : Nat), .longestFirst, 0⟩
      = .ok (sampleEnc, some sampleEnc) := by rfl
  unfold postProcess postTruncate
  simp only [Bert.toProcessor, Option.isSome_some]
  rw [if_pos ⟨trivial, by simp [Bert.addedTokens]⟩, this]
  simp only [Res.bind_ok]
  rw [h1]
  rfl

/-- C25, partial, pairs with `LongestFirst`, when both targets the loop computes
exceed the stride: at most `L` tokens.  (`exactly L` fails, see
`C09_longestFirst_violated`.) -/
theorem C25_pair_longestFirst_partial (proc : PostProcessor) (hx : AddsExactly proc)
    (e p : Encoding) (he : Delivered e) (hp : Delivered p) (L stride : Int)
    (hs0 : 0 ≤ stride) (hL : (proc.addedTokens true : Int) < L)
    (n1 n2 k t1 : Int)
    (hn1 : n1 = e.ids.length) (hn2 : n2 = p.ids.length)
    (hk : k = n1 + n2 - (L - proc.addedTokens true))
    (ht1 : t1 = if n1 > n2 then n1 - k else if k ≤ n2 - n1 + 1 then n1
      else n1 - (k - (n2 - n1 + 1)))
    (hs1 : stride < t1) (hs2 : stride < n2 - k) :
    ∃ r, postProcess (some ⟨L, .longestFirst, stride⟩) (some proc) none e (some p) true
        = .ok (some r) ∧ (r.ids.length : Int) ≤ L := by
  by_cases hroom : (totalLen e (some p) : Int) < L - proc.addedTokens true
  · have hb := C09_budget_partial e he.1 (some p) (by rintro _ ⟨⟩; exact hp.1)
      (L - proc.addedTokens true) stride (by omega)
    obtain ⟨r, h1, h2⟩ := postProcess_of_truncated hx (L := L) (pair := some p)
      (hb.1 hroom .longestFirst) rfl he.usable (by rintro _ ⟨⟩; exact hp.usable)
    refine ⟨r, h1, ?_⟩
    rw [h2]
    simp only [Option.isSome_some]
    omega
  · obtain ⟨e', p', h1, -, -, h4, -⟩ := C09_longestFirst_pair_partial e p he.1 hp.1
      (L - proc.addedTokens true) stride (by omega) (by omega) n1 n2 k hn1 hn2 hk t1 ht1 hs0 hs1 hs2
    have hboth : Usable e' ∧ Usable p' := by
      simp only [totalLen] at hroom
      have h1' := h1
      unfold truncateEncodings at h1'
      rw [if_neg (by simp; omega)] at h1'
      simp only at h1'
      rw [if_neg (by omega)] at h1'
      obtain ⟨l1, l2⟩ := longestFirstLoop_spec
        ((e.ids.length : Int) + p.ids.length - (L - proc.addedTokens true)).toNat
        e.ids.length p.ids.length
      generalize longestFirstLoop
        ((e.ids.length : Int) + p.ids.length - (L - proc.addedTokens true)).toNat
        e.ids.length p.ids.length = lf at h1' l1 l2
      obtain ⟨x, y⟩ := lf
      simp only at l1 l2 h1'
      have hx1 : x = t1 := by rw [l2, ht1]; split <;> split <;> (try split) <;> omega
      have hy1 : y = n2 - k := by rw [l1]; omega
      subst hx1 hy1
      rw [Res.bind_eq_ok] at h1'
      obtain ⟨a, g1, g2⟩ := h1'
      rw [Res.bind_eq_ok] at g2
      obtain ⟨b, g3, g4⟩ := g2
      cases g4
      exact ⟨CutTo.usable he _ stride (by omega) hs0 hs1 g1,
        CutTo.usable hp _ stride (by omega) hs0 hs2 g3⟩
    obtain ⟨r, k1, k2⟩ := postProcess_of_truncated hx (L := L) (pair := some p) h1 rfl hboth.1
      (by rintro _ ⟨⟩; exact hboth.2)
    refine ⟨r, k1, ?_⟩
    rw [k2]
    simp only [Option.isSome_some]
    omega

/-- The hypotheses are met by the sample encoding. -/
example : Delivered sampleEnc :=
  ⟨sampleEnc_aligned, rfl, _, rfl, by
    intro p hp
    simp only [List.mem_singleton] at hp
    subst hp
    exact ⟨0, 5, by decide, by decide, rfl⟩⟩

end Tok
