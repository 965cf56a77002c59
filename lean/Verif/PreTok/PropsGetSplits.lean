import Verif.PreTok.PropsSplitters
import Verif.PreTok.PropsOffsets

/-!
# C73: GetSplits
-/

namespace Tok.PreTok

open Tok.Norm

/-! ### Specification -/

/-- The pre-tokens name their places in the text `s`, in bytes: the value of each is the text
between its offsets. -/
def Named (s : Str) (p : PreToken) : Prop :=
  ∃ u m v, s = u ++ m ++ v ∧ p.value = encStr m ∧ p.offsets = ((blen u : Int), (blen (u ++ m) : Int))

/-- The same, in characters. -/
def NamedChars (s : Str) (p : PreToken) : Prop :=
  ∃ u m v, s = u ++ m ++ v ∧ p.value = encStr m ∧ p.offsets = ((u.length : Int), ((u ++ m).length : Int))

/-! ### Helpers -/

theorem fresh_original {s u m : Str} {x : NStr} (h : FPart s u m x) : x.original = encStr m := h.2.1.original

theorem getSplitsLoop_tokens (ref : IndexOn) (conv : Option (List Nat)) (ss : List Split) : ∀ o ls,
    getSplitsLoop ref conv ss o = .ok ls → ls.map (fun p => (p.value, p.tokens)) =
      ss.map (fun sp => (sp.normalized.normalized, sp.tokens)) := by
  induction ss with
  | nil =>
    intro o ls h
    rw [getSplitsLoop] at h
    cases h
    rfl
  | cons sp ss ih =>
    intro o ls h
    simp only [getSplitsLoop] at h
    split at h
    · simp only [Res.bind_ok, Res.bind_eq_ok] at h
      obtain ⟨rest, h1, h⟩ := h
      cases h
      rw [List.map_cons, List.map_cons, ih _ _ h1]
    · split at h
      · simp only [Res.bind_ok, Res.bind_eq_ok] at h
        obtain ⟨rest, h1, h⟩ := h
        cases h
        rw [List.map_cons, List.map_cons, ih _ _ h1]
      · simp only [Res.bind_panic] at h
        cases h

/-! ### The properties -/

/-- C73: whatever the referential and the unit, `GetSplits` lists the texts and the tokens of the
splits, in order. -/
theorem C73_listed (pt : PTS) (ref : IndexOn) (ot : OffsetType) (ls : List PreToken) (h : pt.getSplits ref ot = .ok ls) :
    ls.map (fun p => (p.value, p.tokens)) = pt.splits.map (fun sp => (sp.normalized.normalized, sp.tokens)) :=
  getSplitsLoop_tokens _ _ _ _ _ h

/-- C73: in the normalized referential, in bytes, the offsets are those of the texts put one after
the other. -/
theorem C73_normalized (pt : PTS) : ∃ ls, pt.getSplits .normalized .byte = .ok ls ∧
    ∀ as p bs, ls = as ++ p :: bs → p.offsets =
      (((as.map (·.value)).flatten.length : Int), (((as ++ [p]).map (·.value)).flatten.length : Int)) := by
  have key : ∀ (ss : List Split) (o : Nat), ∃ ls, getSplitsLoop .normalized none ss o = .ok ls ∧
      ∀ as p bs, ls = as ++ p :: bs → p.offsets =
        ((o : Int) + ((as.map (·.value)).flatten.length : Int), (o : Int) + (((as ++ [p]).map (·.value)).flatten.length : Int)) := by
    intro ss
    induction ss with
    | nil => intro o; exact ⟨[], rfl, fun as p bs h => by simp at h⟩
    | cons sp ss ih =>
      intro o
      obtain ⟨ls, h1, h2⟩ := ih (o + sp.normalized.normalized.length)
      have e : ((o + sp.normalized.normalized.length : Nat) : Int) = (o : Int) + (sp.normalized.normalized.length : Int) := by omega
      rw [e] at h1
      refine ⟨⟨sp.normalized.normalized, ((o : Int) + (sp.normalized.normalized.length : Int) - (sp.normalized.normalized.length : Int),
        (o : Int) + (sp.normalized.normalized.length : Int)), sp.tokens⟩ :: ls, by simp only [getSplitsLoop, h1, Res.bind_ok], ?_⟩
      intro as p bs h
      cases as with
      | nil =>
        rw [List.nil_append, List.cons.injEq] at h
        rw [← h.1]
        simp
      | cons a as =>
        rw [List.cons_append, List.cons.injEq] at h
        obtain ⟨rfl, h⟩ := h
        rw [h2 as p bs h]
        simp only [List.map_cons, List.flatten_cons, List.length_append, List.cons_append, e, Prod.mk.injEq]
        omega
  obtain ⟨ls, h1, h2⟩ := key pt.splits 0
  refine ⟨ls, h1, fun as p bs h => ?_⟩
  have := h2 as p bs h
  simpa using this

/-- C73: in the original referential, in bytes, each text is found in the original at its offsets,
as long as the splits are parts of it. -/
theorem C73_original {s : Str} {gaps : Bool} {ok : Str → List Token → Prop} {pt : PTS}
    (h : Cut s gaps ok [] s pt.splits) : ∃ ls, pt.getSplits .original .byte = .ok ls ∧ ∀ p ∈ ls, Named s p := by
  have key : ∀ {u w : Str} {ss : List Split}, Cut s gaps ok u w ss → ∀ o,
      ∃ ls, getSplitsLoop .original none ss o = .ok ls ∧ ∀ p ∈ ls, Named s p := by
    intro u w ss h
    induction h with
    | done u => intro o; exact ⟨[], rfl, by simp⟩
    | skip u g w ss hg _ ih => exact ih
    | part u m w x t ss hp hm ht _ ih =>
      intro o
      obtain ⟨ls, h1, h2⟩ := ih o
      refine ⟨⟨x.normalized, (x.shift, x.shift + x.original.length), t⟩ :: ls, by simp only [getSplitsLoop, h1, Res.bind_ok], ?_⟩
      intro p hpp
      rcases List.mem_cons.mp hpp with rfl | hpp
      · obtain ⟨v, hv⟩ := hp.1
        refine ⟨u, m, v, hv, fpart_text hp, ?_⟩
        dsimp only
        rw [hp.2.2, fresh_original hp, length_encStr, blen_append]
        simp
      · exact h2 p hpp
  exact key h 0

theorem charGet {s u m v : Str} (h : s = u ++ m ++ v) (hm : m ≠ []) (hv : v ≠ []) :
    convertOffsets (b2c (encStr s)) ((blen u : Int), ((blen u : Int) + (blen m : Int))) =
      .ok ((u.length : Int), ((u ++ m).length : Int)) := by
  cases m with
  | nil => exact absurd rfl hm
  | cons c m =>
    cases v with
    | nil => exact absurd rfl hv
    | cons d v =>
      have := C45_converter_partial s u (m ++ d :: v) c 0 c.utf8Size_pos (by rw [h]; simp) (u ++ c :: m) v d 0 d.utf8Size_pos h
      rw [Nat.add_zero, Nat.add_zero, blen_append] at this
      rw [← this]
      rfl

/-- C73, in characters: right as long as no split reaches the end of the text. -/
theorem C73_chars_partial {s z : Str} {gaps : Bool} {ok : Str → List Token → Prop} {pt : PTS} {w : Str}
    (ho : pt.original = encStr s) (hw : s = w ++ z) (hz : z ≠ [])
    (h : Cut s gaps ok [] w pt.splits) : ∃ ls, pt.getSplits .original .char = .ok ls ∧ ∀ p ∈ ls, NamedChars s p := by
  have key : ∀ {u w : Str} {ss : List Split}, Cut s gaps ok u w ss → ∀ z, s = w ++ z → z ≠ [] → ∀ o,
      (∃ v, s = u ++ v ∧ v ≠ []) ∧
      ∃ ls, getSplitsLoop .original (some (b2c (encStr s))) ss o = .ok ls ∧ ∀ p ∈ ls, NamedChars s p := by
    intro u w ss h
    induction h with
    | done u => intro z hs hz o; exact ⟨⟨z, hs, hz⟩, [], rfl, by simp⟩
    | skip u g w ss hg _ ih =>
      intro z hs hz o
      obtain ⟨⟨v, h1, h2⟩, h3⟩ := ih z hs hz o
      exact ⟨⟨g ++ v, by rw [h1]; simp, by simp [h2]⟩, h3⟩
    | part u m w x t ss hp hm ht _ ih =>
      intro z hs hz o
      obtain ⟨⟨v, h1, h2⟩, ls, h3, h4⟩ := ih z hs hz o
      refine ⟨⟨m ++ v, by rw [h1]; simp, by simp [h2]⟩, ?_⟩
      have hc := charGet h1 hm h2
      have e1 : x.shift = (blen u : Int) := hp.2.2
      have e2 : x.original.length = blen m := by rw [fresh_original hp, length_encStr]
      refine ⟨⟨x.normalized, ((u.length : Int), ((u ++ m).length : Int)), t⟩ :: ls,
        by simp only [getSplitsLoop, e1, e2, hc, h3, Res.bind_ok], ?_⟩
      intro p hpp
      rcases List.mem_cons.mp hpp with rfl | hpp
      · exact ⟨u, m, v, h1, fpart_text hp, rfl⟩
      · exact h4 p hpp
  obtain ⟨_, ls, h1, h2⟩ := key h z hw hz 0
  refine ⟨ls, ?_, h2⟩
  unfold PTS.getSplits
  rw [ho]
  exact h1

/-- C73 fails in characters: whenever a split reaches the end of the text, the program panics. So it does for every
text that was only cut. -/
theorem C73_chars_violated {s : Str} {ok : Str → List Token → Prop} {pt : PTS} (hs : s ≠ []) (ho : pt.original = encStr s)
    (h : Cut s false ok [] s pt.splits) : pt.getSplits .original .char = .panic := by
  have key : ∀ {u w : Str} {ss : List Split}, Cut s false ok u w ss → w = s → u ≠ s → ∀ o,
      getSplitsLoop .original (some (b2c (encStr s))) ss o = .panic := by
    intro u w ss h
    induction h with
    | done u => intro hw hu; exact absurd hw hu
    | skip u g w ss hg _ ih => cases hg
    | part u m w x t ss hp hm ht _ ih =>
      intro hw hu o
      obtain ⟨v, hv⟩ := hp.1
      have e1 : x.shift = (blen u : Int) := hp.2.2
      have e2 : x.original.length = blen m := by rw [fresh_original hp, length_encStr]
      by_cases hum : u ++ m = s
      · have hc := C45_end_violated s (blen u : Int)
        rw [← hum, blen_append] at hc
        rw [← hum]
        have e3 : ((blen u + blen m : Nat) : Int) = (blen u : Int) + (blen m : Int) := by omega
        rw [e3] at hc
        simp only [getSplitsLoop, e1, e2, hc, Res.bind_panic]
      · have hvne : v ≠ [] := by
          rintro rfl
          exact hum (by rw [hv]; simp)
        have hc := charGet hv hm hvne
        simp only [getSplitsLoop, e1, e2, hc, Res.bind_ok, ih hw hum, Res.bind_panic]
  unfold PTS.getSplits
  rw [ho]
  exact key h rfl (Ne.symm hs) 0

/-- Even for a text that was not cut at all. -/
theorem C73_new_violated (s : Str) (hs : s ≠ []) : (newPTS (encStr s)).getSplits .original .char = .panic :=
  C73_chars_violated (ok := fun _ _ => True) hs rfl
    (.part [] s _ _ none [] (fpart_whole s) hs (fun _ _ => trivial) (.done _))

example (c : Char → Bool) : ∃ pt', digits c false (newPTS (encStr "ab12".toList)) = .ok pt' ∧
    ∃ ls, pt'.getSplits .original .byte = .ok ls ∧ ∀ p ∈ ls, Named "ab12".toList p := by
  obtain ⟨pt', h1, _, h3, _⟩ := C65_digits c false false "ab12".toList (fun _ _ => True) (newPTS (encStr "ab12".toList)) rfl
    (.part [] "ab12".toList _ _ none [] (fpart_whole _) (by decide) (fun _ _ => trivial) (.done _))
  exact ⟨pt', h1, C73_original h3⟩

end Tok.PreTok
