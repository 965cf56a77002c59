import Verif.Encoding.PadLemmas
import Verif.Encoding.PropsTruncate

/-!
# C03, C04: padding
-/

namespace Tok

/-- `e'` is `e` right-padded to `target`: in every array the old entries
followed by as many pad entries as are missing; nothing else changes. -/
def RightPadded (target padId padTypeId : Int) (padToken : Str) (e e' : Encoding) : Prop :=
  (∀ f : Field, e'.arr f = e.arr f ++
    List.replicate (target - e.ids.length).toNat (padEntry padId padTypeId padToken f)) ∧
  e'.ranges = e.ranges

/-- C03.  Right padding never fails, pads the encoding itself and every
overflowing part, and keeps what the parts carry below them. -/
theorem C03_pad_right (e : Encoding) (target padId padTypeId : Int) (padToken : Str) :
    ∃ e', e.pad target padId padTypeId padToken .right = .ok e' ∧
      RightPadded target padId padTypeId padToken e e' ∧
      List.Forall₂ (fun o o' => RightPadded target padId padTypeId padToken o o' ∧
        o'.overflowing = o.overflowing) e.overflowing e'.overflowing := by
  have hm : mapRes (fun o => Encoding.pad1 o target padId padTypeId padToken .right) e.overflowing
      = .ok (e.overflowing.map (fun o => Encoding.padRightLoop padId padTypeId padToken
          (target - o.ids.length).toNat o)) := mapRes_ok _ _ _ (fun _ _ => rfl)
  have hover : List.Forall₂ (fun o o' => RightPadded target padId padTypeId padToken o o' ∧
      o'.overflowing = o.overflowing) e.overflowing
      (e.overflowing.map (fun o => Encoding.padRightLoop padId padTypeId padToken
          (target - o.ids.length).toNat o)) := by
    generalize e.overflowing = l
    induction l with
    | nil => exact .nil
    | cons o l ih =>
      refine .cons ⟨⟨fun f => padRightLoop_arr _ _ _ _ _ _, (padRightLoop_rest _ _ _ _ _).2⟩,
        (padRightLoop_rest _ _ _ _ _).1⟩ ih
  unfold Encoding.pad
  rw [hm]
  simp only [Res.bind_ok]
  split
  · next h =>
    refine ⟨_, rfl, ⟨fun f => ?_, rfl⟩, hover⟩
    have : (target - (e.ids.length : Int)).toNat = 0 := by omega
    rw [this]
    cases f <;> simp
  · refine ⟨_, rfl, ⟨fun f => ?_, (padRightLoop_rest _ _ _ _ _).2⟩, ?_⟩
    · rw [padRightLoop_arr]
    · rw [(padRightLoop_rest _ _ _ _ _).1]; exact hover

example : (sampleEnc.pad 7 9 1 ['P'] .right).bind (fun e => .ok (e.ids, e.attentionMask))
    = .ok ([1, 2, 3, 4, 5, 9, 9], [1, 1, 1, 1, 1, 0, 0]) := by rfl

/-- `e'` is `e` left-padded to `target`. -/
def LeftPadded (target padId padTypeId : Int) (padToken : Str) (e e' : Encoding) : Prop :=
  ∀ f : Field, e'.arr f =
    List.replicate (target - e.ids.length).toNat (padEntry padId padTypeId padToken f) ++ e.arr f

theorem padLeft_panic (e : Encoding) (n padId padTypeId : Int) (padToken : Str)
    (hne : e.ids ≠ []) : e.padLeft n padId padTypeId padToken = .panic := by
  unfold Encoding.padLeft goMake
  by_cases hn : n < 0
  · simp [hn]
  · have hl : 0 < e.ids.length := List.length_pos_iff.2 hne
    simp only [if_neg hn, Res.bind_ok, List.length_replicate, fillLoop_make]
    rw [fillLoop_panic _ _ _ _ (by simp; omega) (by simp; omega)]
    rfl

theorem padLeft_empty (e : Encoding) (n : Nat) (padId padTypeId : Int) (padToken : Str)
    (hne : e.ids = []) : ∃ e', e.padLeft n padId padTypeId padToken = .ok e' ∧
      e'.typeIds = List.replicate n padTypeId ++ List.replicate n padId := by
  unfold Encoding.padLeft goMake
  have hn : ¬ ((n : Int) < 0) := by omega
  simp only [if_neg hn, Res.bind_ok, List.length_replicate, fillLoop_make, hne, List.append_nil,
    Int.toNat_natCast]
  exact ⟨_, rfl, rfl⟩

/-- C04 is violated, for every encoding that needs padding: left padding either
panics or returns arrays of different lengths, never the left-padded encoding. -/
theorem C04_pad_left_violated (e : Encoding) (target padId padTypeId : Int) (padToken : Str)
    (h : (e.ids.length : Int) < target) (ha : e.Aligned) :
    ¬ ∃ e', e.pad target padId padTypeId padToken .left = .ok e' ∧
      LeftPadded target padId padTypeId padToken e e' := by
  rintro ⟨e', hp, hl⟩
  unfold Encoding.pad at hp
  rw [Res.bind_eq_ok] at hp
  obtain ⟨over, -, hp⟩ := hp
  simp only at hp
  rw [if_neg (by omega)] at hp
  unfold Encoding.pad1 at hp
  simp only at hp
  by_cases hne : e.ids = []
  · have hn : target - (e.ids.length : Int) = ((target - (e.ids.length : Int)).toNat : Nat) := by
      omega
    rw [hn] at hp
    obtain ⟨e'', h1, h2⟩ := padLeft_empty { e with overflowing := over }
      (target - (e.ids.length : Int)).toNat padId padTypeId padToken hne
    rw [h1] at hp
    cases hp
    have ht := congrArg List.length (hl .typeIds)
    simp only [Encoding.arr] at ht
    rw [h2] at ht
    simp only [List.length_append, List.length_replicate] at ht
    have hT := ha .typeIds
    simp only [Encoding.arr, hne, List.length_nil] at hT
    omega
  · rw [padLeft_panic { e with overflowing := over } _ _ _ _ hne] at hp
    cases hp

example : (sampleEnc.ids.length : Int) < 7 ∧ sampleEnc.Aligned := ⟨by decide, sampleEnc_aligned⟩

/-- C04, what remains true: when nothing has to be padded (and there are no
overflowing parts) the encoding is returned as it is. -/
theorem C04_pad_left_partial (e : Encoding) (target padId padTypeId : Int) (padToken : Str)
    (h : target ≤ e.ids.length) (ho : e.overflowing = []) :
    e.pad target padId padTypeId padToken .left = .ok e ∧
      LeftPadded target padId padTypeId padToken e e := by
  constructor
  · unfold Encoding.pad
    rw [ho]
    simp only [mapRes, Res.bind_ok]
    rw [if_pos (by simpa using h)]
    cases e; simp_all
  · intro f
    have : (target - (e.ids.length : Int)).toNat = 0 := by omega
    simp [this]

example : (3 : Int) ≤ sampleEnc.ids.length ∧ sampleEnc.overflowing = [] := by decide

end Tok
