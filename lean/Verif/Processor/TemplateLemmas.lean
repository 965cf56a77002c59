import Verif.Processor.PropsBert

namespace Tok

/-- Every range in the list is a non-empty run of non-negative positions. -/
def GoodRanges (l : List (Int × Range)) : Prop :=
  ∀ p ∈ l, ∃ a b : Int, 0 ≤ a ∧ a < b ∧ newRange a b = .ok p.2

theorem RangesOk.ranges {e : Encoding} (h : RangesOk e) :
    ∃ l, e.ranges = some l ∧ GoodRanges l := by
  cases h with | mk _ l h1 h2 _ => exact ⟨l, h1, h2⟩

theorem RangesOk.over {e : Encoding} (h : RangesOk e) : ∀ o ∈ e.overflowing, RangesOk o := by
  cases h with | mk _ l _ _ h3 => exact h3

theorem RangesOk.intro {e : Encoding} {l : List (Int × Range)} (h1 : e.ranges = some l)
    (h2 : GoodRanges l) (h3 : ∀ o ∈ e.overflowing, RangesOk o) : RangesOk e := .mk e l h1 h2 h3

theorem goodRanges_assocSet {l : List (Int × Range)} (h : GoodRanges l) (k : Int) (r : Range)
    (a b : Int) (h0 : 0 ≤ a) (hab : a < b) (hr : newRange a b = .ok r) :
    GoodRanges (assocSet k r l) := by
  induction l with
  | nil =>
    intro p hp
    simp only [assocSet, List.mem_singleton] at hp
    subst hp
    exact ⟨a, b, h0, hab, hr⟩
  | cons q l ih =>
    unfold assocSet
    split
    · intro p hp
      rcases List.mem_cons.1 hp with rfl | hp
      · exact ⟨a, b, h0, hab, hr⟩
      · exact h p (by simp [hp])
    · intro p hp
      rcases List.mem_cons.1 hp with rfl | hp
      · exact h p (by simp)
      · exact ih (fun x hx => h x (by simp [hx])) p hp

theorem mergeRanges_good (n : Nat) (ps m : List (Int × Range)) (h : GoodRanges ps)
    (hm : GoodRanges m) : ∃ m', mergeRanges n ps (some m) = .ok (some m') ∧ GoodRanges m' := by
  induction ps generalizing m with
  | nil => exact ⟨m, rfl, hm⟩
  | cons p ps ih =>
    obtain ⟨a, b, h0, hab, hr⟩ := h p (by simp)
    obtain ⟨h1, h2⟩ := newRange_head_last h0 hab hr
    obtain ⟨s, r⟩ := p
    simp only [mergeRanges]
    simp only at h1 h2
    rw [h1, h2]
    simp only [Res.bind_ok]
    obtain ⟨r', hr'⟩ : ∃ r', newRange ((n : Int) + a) ((n : Int) + (b - 1) + 1) = .ok r' :=
      ⟨_, newRange_ok (by omega) (by omega)⟩
    rw [hr']
    simp only [Res.bind_ok, rangesSet]
    exact ih _ (fun q hq => h q (by simp [hq]))
      (goodRanges_assocSet hm s r' _ _ (by omega) (by omega) hr')

theorem mergeWith_rangesOk {e pair r : Encoding} (he : RangesOk e) (hp : RangesOk pair)
    (growing : Bool) (hr : e.mergeWith pair growing = .ok r) : RangesOk r := by
  induction he generalizing pair r with
  | mk e l hl hv ho ih =>
    induction hp generalizing r with
    | mk pair l' hl' hv' ho' ih' =>
      have hover := C07_merge_overflow _ _ _ _ hr
      obtain ⟨o1, o2, m, -, -, h3, h4⟩ := mergeWith_ok hr
      rw [hl, hl', Option.getD_some] at h3
      obtain ⟨m', h5, h6⟩ := mergeRanges_good e.ids.length l' l hv' hv
      rw [h5] at h3
      cases h3
      refine RangesOk.intro (l := m') (by rw [h4]) h6 ?_
      intro o hor
      obtain ⟨⟨x, y⟩, hxy, hm⟩ := forall₂_mem_right hover hor
      simp only at hm
      unfold overflowPairs at hxy
      rw [List.mem_append] at hxy
      rcases hxy with hxy | hxy
      · rw [List.mem_flatMap] at hxy
        obtain ⟨z, hz, hxy⟩ := hxy
        rcases List.mem_cons.1 hxy with h | h
        · cases h
          exact ih _ hz (.mk pair l' hl' hv' ho') hm
        · obtain ⟨w, hw, h⟩ := List.mem_map.1 h
          cases h
          exact ih _ hz (ho' _ hw) hm
      · obtain ⟨w, hw, h⟩ := List.mem_map.1 hxy
        cases h
        exact ih' _ hw hm

theorem merge_ok (e : Encoding) (es : List Encoding) (growing : Bool) (he : RangesOk e)
    (hes : ∀ x ∈ es, RangesOk x) : ∃ r, e.merge es growing = .ok r ∧ RangesOk r := by
  induction es generalizing e with
  | nil => exact ⟨e, rfl, he⟩
  | cons x xs ih =>
    obtain ⟨e', h1⟩ := mergeWith_isOk he (hes x (by simp)) growing
    have h2 := mergeWith_rangesOk he (hes x (by simp)) growing h1
    rw [Encoding.merge, h1]
    exact ih e' h2 (fun y hy => hes y (by simp [hy]))

theorem merge_plain_list {e r : Encoding} {es : List Encoding} (hr : e.merge es false = .ok r)
    (f : Field) : r.arr f = e.arr f ++ (es.map (fun x => x.arr f)).flatten := by
  induction es generalizing e with
  | nil => cases hr; simp
  | cons x xs ih =>
    rw [Encoding.merge, Res.bind_eq_ok] at hr
    obtain ⟨e', h1, h2⟩ := hr
    rw [ih h2, merge_plain_arr h1]
    simp

theorem mergeEncodings_arr {es : List Encoding} {r : Encoding}
    (hr : mergeEncodings es false = .ok (some r)) (f : Field) :
    r.arr f = (es.map (fun x => x.arr f)).flatten := by
  unfold mergeEncodings at hr
  split at hr
  · cases hr
  · cases hr; simp
  · rw [Res.bind_eq_ok] at hr
    obtain ⟨r', h1, h2⟩ := hr
    cases h2
    rw [merge_plain_list h1]
    simp

theorem mergeEncodings_ok (es : List Encoding) (hne : es ≠ []) (h : ∀ e ∈ es, RangesOk e)
    (growing : Bool) : ∃ r, mergeEncodings es growing = .ok (some r) ∧ RangesOk r := by
  unfold mergeEncodings
  split
  · exact absurd rfl hne
  · next a => exact ⟨a, rfl, h a (by simp)⟩
  · next a rest _ =>
    obtain ⟨r, h1, h2⟩ := merge_ok a rest growing (h a (by simp)) (fun x hx => h x (by simp [hx]))
    exact ⟨r, by rw [h1]; rfl, h2⟩

theorem setSequenceIds_ok (e : Encoding) (i : Int) :
    ∃ e', e.setSequenceIds i = .ok e' ∧ (∀ f, e'.arr f = e.arr f) ∧
      e'.overflowing = e.overflowing ∧
      (∀ l, e.ranges = some l → GoodRanges l → ∃ l', e'.ranges = some l' ∧ GoodRanges l') ∧
      (e.ids ≠ [] → e.ranges = none → ∃ l', e'.ranges = some l' ∧ GoodRanges l') := by
  unfold Encoding.setSequenceIds
  split
  · next h =>
    have hr := newRange_ok (a := 0) (b := e.ids.length) (by omega) (by omega)
    rw [hr]
    simp only [Res.bind_ok]
    cases hrg : e.ranges with
    | none =>
      refine ⟨_, rfl, fun f => by cases f <;> rfl, rfl, by simp, fun _ _ => ⟨_, rfl, ?_⟩⟩
      exact goodRanges_assocSet (by intro p hp; cases hp) i _ 0 e.ids.length (by omega)
        (by omega) hr
    | some l =>
      refine ⟨_, rfl, fun f => by cases f <;> rfl, rfl, ?_, by simp⟩
      intro l' hl' hg
      cases hl'
      exact ⟨_, rfl, goodRanges_assocSet hg i _ 0 e.ids.length (by omega) (by omega) hr⟩
  · next h =>
    refine ⟨e, rfl, fun _ => rfl, rfl, fun l h1 h2 => ⟨l, h1, h2⟩, ?_⟩
    intro hne
    exact absurd (List.length_pos_iff.2 hne) h

end Tok
