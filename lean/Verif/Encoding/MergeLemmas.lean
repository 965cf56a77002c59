import Verif.Encoding.PadLemmas

namespace Tok

theorem mapRes_map (g : β → Res γ) (h : α → β) (l : List α) :
    mapRes g (l.map h) = mapRes (fun a => g (h a)) l := by
  induction l with
  | nil => rfl
  | cons a l ih => simp only [List.map_cons, mapRes, ih]

theorem mapRes_attach (l : List α) (g : α → Res β) :
    mapRes (fun (p : {x // x ∈ l}) => g p.1) l.attach = mapRes g l := by
  have := mapRes_map g (fun (p : {x // x ∈ l}) => p.1) l.attach
  rw [← this]; congr 1; simp

/-- `MergeWith` without the termination bookkeeping. -/
theorem mergeWith_eq (e pair : Encoding) (growing : Bool) :
    e.mergeWith pair growing = (do
      let over1 ← mapRes (fun o => do
          let a ← Encoding.mergeWith o pair growing
          let bs ← mapRes (fun p => Encoding.mergeWith o p growing) pair.overflowing
          Res.ok (a :: bs)) e.overflowing
      let over2 ← mapRes (fun p => Encoding.mergeWith e p growing) pair.overflowing
      e.mergeSelf pair (over1.flatten ++ over2) growing) := by
  rw [Encoding.mergeWith]
  have h1 : ∀ o : Encoding, mapRes (fun (p : {x // x ∈ pair.overflowing}) =>
      Encoding.mergeWith o p.1 growing) pair.overflowing.attach
      = mapRes (fun p => Encoding.mergeWith o p growing) pair.overflowing :=
    fun o => mapRes_attach _ (fun p => Encoding.mergeWith o p growing)
  simp only [h1]
  rw [mapRes_attach _ (fun o => do
          let a ← Encoding.mergeWith o pair growing
          let bs ← mapRes (fun p => Encoding.mergeWith o p growing) pair.overflowing
          Res.ok (a :: bs))]

theorem mergeSelf_ok {e pair r : Encoding} {over : List Encoding} {growing : Bool}
    (h : e.mergeSelf pair over growing = .ok r) :
    ∃ m, mergeRanges e.ids.length (pair.ranges.getD []) e.ranges = .ok m ∧
    r = { ids := e.ids ++ pair.ids
          typeIds := e.typeIds ++ pair.typeIds
          tokens := e.tokens ++ pair.tokens
          offsets := mergeOffsets e.offsets pair.offsets growing
          specialMask := e.specialMask ++ pair.specialMask
          attentionMask := e.attentionMask ++ pair.attentionMask
          words := e.words ++ pair.words
          overflowing := over
          ranges := m } := by
  unfold Encoding.mergeSelf at h
  rw [Res.bind_eq_ok] at h
  obtain ⟨m, h1, h2⟩ := h
  exact ⟨m, h1, by cases h2; rfl⟩

theorem mergeWith_ok {e pair r : Encoding} {growing : Bool}
    (h : e.mergeWith pair growing = .ok r) :
    ∃ over1 over2 m,
      List.Forall₂ (fun o l => ∃ a bs, l = a :: bs ∧ o.mergeWith pair growing = .ok a ∧
        List.Forall₂ (fun p b => o.mergeWith p growing = .ok b) pair.overflowing bs)
        e.overflowing over1 ∧
      List.Forall₂ (fun p b => e.mergeWith p growing = .ok b) pair.overflowing over2 ∧
      mergeRanges e.ids.length (pair.ranges.getD []) e.ranges = .ok m ∧
      r = { ids := e.ids ++ pair.ids
            typeIds := e.typeIds ++ pair.typeIds
            tokens := e.tokens ++ pair.tokens
            offsets := mergeOffsets e.offsets pair.offsets growing
            specialMask := e.specialMask ++ pair.specialMask
            attentionMask := e.attentionMask ++ pair.attentionMask
            words := e.words ++ pair.words
            overflowing := over1.flatten ++ over2
            ranges := m } := by
  rw [mergeWith_eq, Res.bind_eq_ok] at h
  obtain ⟨over1, h1, h⟩ := h
  rw [Res.bind_eq_ok] at h
  obtain ⟨over2, h2, h⟩ := h
  obtain ⟨m, h3, h4⟩ := mergeSelf_ok h
  refine ⟨over1, over2, m, ?_, mapRes_eq_ok.1 h2, h3, h4⟩
  rw [mapRes_eq_ok] at h1
  clear h2 h3 h4 h
  generalize e.overflowing = l at h1 ⊢
  induction h1 with
  | nil => exact .nil
  | cons hab _ ih =>
    refine .cons ?_ ih
    rw [Res.bind_eq_ok] at hab
    obtain ⟨a, ha, hab⟩ := hab
    rw [Res.bind_eq_ok] at hab
    obtain ⟨bs, hb, hab⟩ := hab
    exact ⟨a, bs, by cases hab; rfl, ha, mapRes_eq_ok.1 hb⟩

theorem mapRes_isOk (g : α → Res β) (l : List α) (h : ∀ a ∈ l, ∃ b, g a = .ok b) :
    ∃ r, mapRes g l = .ok r := by
  induction l with
  | nil => exact ⟨_, rfl⟩
  | cons a l ih =>
    obtain ⟨b, hb⟩ := h a (by simp)
    obtain ⟨r, hr⟩ := ih (fun x hx => h x (by simp [hx]))
    exact ⟨b :: r, by unfold mapRes; rw [hb, hr]; rfl⟩

theorem newRange_ok {a b : Int} (h0 : 0 ≤ a) (h : a < b) :
    newRange a b = .ok ((List.range (b - a).toNat).map (fun (i : Nat) => a + (i : Int))) := by
  unfold newRange
  rw [if_neg (by omega), if_neg (by omega)]

theorem mem_newRange {a b : Int} {r : Range} (h : newRange a b = .ok r) (x : Int) :
    x ∈ r ↔ a ≤ x ∧ x < b := by
  unfold newRange at h
  split at h
  · cases h
  · split at h
    · cases h
    · cases h
      simp only [List.mem_map, List.mem_range]
      constructor
      · rintro ⟨i, hi, rfl⟩; omega
      · rintro ⟨h1, h2⟩; exact ⟨(x - a).toNat, by omega, by omega⟩

end Tok
