import Verif.Word.Builder

/-! # C108: a WordLevel model that was put together with its builder -/

namespace Tok

/-! ### Specification -/

/-- A map: every key is once. -/
def IsMap (v : List (Str × Int)) : Prop := (v.map (·.1)).Nodup

/-- Different tokens have different ids. -/
def IdsDiffer (v : List (Str × Int)) : Prop := ∀ a b i, mget v a = some i → mget v b = some i → a = b

/-! ### Lemmas -/

theorem isMap_mget {v : List (Str × Int)} (hv : IsMap v) {t : Str} {i : Int} (h : (t, i) ∈ v) :
    mget v t = some i := by
  induction v with
  | nil => cases h
  | cons p l ih =>
    simp only [IsMap, List.map_cons, List.nodup_cons] at hv
    unfold mget
    rcases List.mem_cons.1 h with e | e
    · subst e; simp
    · have hne : ¬ (p.1 == t) = true := by
        intro h'
        have h' : p.1 = t := by simpa using h'
        exact hv.1 (by rw [h']; exact List.mem_map.2 ⟨_, e, rfl⟩)
      rw [if_neg hne]
      exact ih hv.2 e

/-- What the inverting loop has for an id is a token with that id, and it has something for every id. -/
theorem invert_loop (order : List (Str × Int)) : ∀ (r : List (Int × Str)) (i : Int),
    (∀ t, mget (order.foldl (fun r p => mset r p.2 p.1) r) i = some t → (t, i) ∈ order ∨ mget r i = some t) ∧
    ((∃ t, (t, i) ∈ order) ∨ (∃ t, mget r i = some t) →
      ∃ t, mget (order.foldl (fun r p => mset r p.2 p.1) r) i = some t) := by
  induction order with
  | nil =>
    intro r i
    refine ⟨fun t h => Or.inr h, ?_⟩
    rintro (⟨t, h⟩ | h)
    · cases h
    · exact h
  | cons p l ih =>
    intro r i
    obtain ⟨h1, h2⟩ := ih (mset r p.2 p.1) i
    simp only [List.foldl_cons]
    refine ⟨?_, ?_⟩
    · intro t h
      rcases h1 t h with h | h
      · exact Or.inl (List.mem_cons_of_mem _ h)
      · rw [mget_mset] at h
        split at h
        · next e =>
          cases h
          subst e
          exact Or.inl (List.mem_cons_self ..)
        · exact Or.inr h
    · intro h
      apply h2
      by_cases e : i = p.2
      · exact Or.inr ⟨p.1, by rw [mget_mset, if_pos e]⟩
      · rcases h with ⟨t, h⟩ | ⟨t, h⟩
        · rcases List.mem_cons.1 h with h | h
          · subst h; exact absurd rfl e
          · exact Or.inl ⟨t, h⟩
        · exact Or.inr ⟨t, by rw [mget_mset, if_neg e]; exact h⟩

theorem invert_some {v order : List (Str × Int)} (hv : IsMap v) (ho : order.Perm v) {i : Int} {t : Str}
    (h : mget (invertVocab order) i = some t) : mget v t = some i := by
  rcases (invert_loop order [] i).1 t h with h | h
  · exact isMap_mget hv (ho.subset h)
  · cases h

theorem invert_has {v order : List (Str × Int)} (ho : order.Perm v) {i : Int} {t : Str}
    (h : mget v t = some i) : ∃ t', mget (invertVocab order) i = some t' :=
  (invert_loop order [] i).2 (Or.inl ⟨t, ho.symm.subset (mem_of_mget h)⟩)

/-- Calls one after another are the calls of the first part and then of the second. -/
theorem wlCalls_append (ks ks' : List WlCall) : ∀ c, wlCalls c (ks ++ ks') =
    (wlCalls c ks).bind fun c' => wlCalls c' ks' := by
  induction ks with
  | nil => intro c; rfl
  | cons k ks ih =>
    intro c
    simp only [List.cons_append, wlCalls]
    cases h : wlCall c k with
    | ok c' => exact ih c'
    | err => rfl
    | panic => rfl

/-! ### C108 -/

/-- **C108.** If different tokens have different ids, the built model gives ids and tokens back,
whatever the order in which the vocabulary is iterated. Missing: vocabularies with an id twice, for
which it fails (`C108_twice_violated`). -/
theorem C108_build_partial {c : WlConfig} (hv : IsMap c.entries) (hd : IdsDiffer c.entries)
    {order : List (Str × Int)} (ho : order.Perm c.entries) (t : Str) (i : Int) :
    (wlBuild c order).tokenToId t = some i ↔ (wlBuild c order).idToToken i = some t := by
  constructor
  · intro h
    obtain ⟨t', h'⟩ := invert_has ho h
    rw [hd t t' i h (invert_some hv ho h')]
    exact h'
  · exact fun h => invert_some hv ho h

/-- **C108, violated.** If two tokens have the same id, one of them does not come back from its id. -/
theorem C108_twice_violated {c : WlConfig} {a b : Str} {i : Int} (hab : a ≠ b) (ha : mget c.entries a = some i)
    (hb : mget c.entries b = some i) (order : List (Str × Int)) :
    ∃ t, (wlBuild c order).tokenToId t = some i ∧ (wlBuild c order).idToToken i ≠ some t := by
  by_cases h : (wlBuild c order).idToToken i = some a
  · refine ⟨b, hb, ?_⟩
    rw [h]
    intro e
    exact hab (Option.some.inj e)
  · exact ⟨a, ha, h⟩

/-- **C108.** If the last call is `UnkToken(u)`, every word is encoded: as itself if it is in the
vocabulary, else with the id of `u`, which is the number of tokens there were. -/
theorem C108_unk {c c' : WlConfig} {ks : List WlCall} {u : Str} (h : wlCalls c (ks ++ [.unkToken u]) = .ok c')
    (order : List (Str × Int)) (w : Str) :
    ∃ i, (wlBuild c' order).tokenize w = .ok [⟨i, w, (0, (blen w : Int))⟩] ∧
      ((wlBuild c' order).tokenToId w = some i ∨
        (wlBuild c' order).tokenToId w = none ∧ (wlBuild c' order).tokenToId u = some i ∧
          ∃ d v, wlCalls c ks = .ok d ∧ d.vocab = some v ∧ i = (v.length : Int)) := by
  rw [wlCalls_append] at h
  cases hk : wlCalls c ks with
  | err => rw [hk] at h; cases h
  | panic => rw [hk] at h; cases h
  | ok d =>
    rw [hk] at h
    cases hv : d.vocab with
    | none =>
      simp only [Res.bind, wlCalls, wlCall, hv] at h
      cases h
    | some v =>
      have h : c' = ⟨some (mset v u v.length), u⟩ := by
        simp only [Res.bind, wlCalls, wlCall, hv] at h
        cases h
        rfl
      subst h
      simp only [wlBuild, WlModel.tokenize, WlModel.tokenToId, wordLevelTokenize, WlConfig.entries, Option.getD_some]
      cases hw : mget (mset v u (v.length : Int)) w with
      | some i => exact ⟨i, rfl, Or.inl rfl⟩
      | none =>
        refine ⟨v.length, ?_, Or.inr ⟨rfl, ?_, d, v, rfl, hv, rfl⟩⟩
        · rw [mget_mset_self]
        · rw [mget_mset_self]

/-- **C108, violated.** `UnkToken` moves a token that is in the vocabulary already: with the ids
`0, ..., n - 1` it gets the id `n`, so that its former id names nothing. -/
theorem C108_moved_violated {c : WlConfig} {v : List (Str × Int)} (hc : c.vocab = some v) (hv : IsMap v)
    (hd : IdsDiffer v) (hr : ∀ t i, mget v t = some i → 0 ≤ i ∧ i < v.length) {u : Str} {i : Int}
    (hu : mget v u = some i) :
    ∃ c', wlCalls c [.unkToken u] = .ok c' ∧ ∀ order : List (Str × Int), order.Perm c'.entries →
      (wlBuild c' order).tokenToId u = some (v.length : Int) ∧ (v.length : Int) ≠ i ∧
      (wlBuild c' order).idToToken i = none := by
  refine ⟨⟨some (mset v u v.length), u⟩, by simp [wlCalls, wlCall, hc], ?_⟩
  intro order ho
  have hne : (v.length : Int) ≠ i := by have := hr u i hu; omega
  refine ⟨mget_mset_self .., hne, ?_⟩
  cases h : (wlBuild ⟨some (mset v u v.length), u⟩ order).idToToken i with
  | none => rfl
  | some t =>
    exfalso
    have hm : ∀ (l : List (Str × Int)) (k : Int), IsMap l → IsMap (mset l u k) ∧
        ∀ x, x ∈ (mset l u k).map (·.1) → x = u ∨ x ∈ l.map (·.1) := by
      intro l k
      induction l with
      | nil => intro _; simp [mset, IsMap]
      | cons p l ih =>
        intro hl
        simp only [IsMap, List.map_cons, List.nodup_cons] at hl
        unfold mset
        split
        · next e =>
          have e : p.1 = u := by simpa using e
          refine ⟨?_, ?_⟩
          · simp only [IsMap, List.map_cons, List.nodup_cons]
            rw [← e]
            exact hl
          · intro x hx
            rcases List.mem_cons.1 hx with hx | hx
            · exact Or.inl hx
            · exact Or.inr (List.mem_cons_of_mem _ hx)
        · next e =>
          have e : p.1 ≠ u := by simpa using e
          obtain ⟨i1, i2⟩ := ih hl.2
          refine ⟨?_, ?_⟩
          · simp only [IsMap, List.map_cons, List.nodup_cons]
            refine ⟨fun hx => ?_, i1⟩
            rcases i2 _ hx with hx | hx
            · exact e hx
            · exact hl.1 hx
          · intro x hx
            rcases List.mem_cons.1 hx with hx | hx
            · exact Or.inr (by rw [hx]; exact List.mem_cons_self ..)
            · rcases i2 _ hx with hx | hx
              · exact Or.inl hx
              · exact Or.inr (List.mem_cons_of_mem _ hx)
    have h1 : mget (mset v u (v.length : Int)) t = some i := invert_some (hm v _ hv).1 ho h
    rw [mget_mset] at h1
    split at h1
    · exact hne (Option.some.inj h1)
    · next hx => exact hx (hd t u i h1 hu)

/-- **C108, violated.** `UnkToken` takes an id that is in use when the ids have a gap: words that are
not known are then encoded with the id of a word that is. -/
theorem C108_clash_violated {c : WlConfig} {v : List (Str × Int)} (hc : c.vocab = some v) {a u w : Str}
    (ha : mget v a = some (v.length : Int)) (hau : a ≠ u) (hw : mget v w = none) (hwu : w ≠ u) :
    ∃ c', wlCalls c [.unkToken u] = .ok c' ∧ ∀ order,
      (wlBuild c' order).tokenToId a = some (v.length : Int) ∧ (wlBuild c' order).tokenToId w = none ∧
      (wlBuild c' order).tokenize w = .ok [⟨v.length, w, (0, (blen w : Int))⟩] := by
  refine ⟨⟨some (mset v u v.length), u⟩, by simp [wlCalls, wlCall, hc], ?_⟩
  intro order
  have h1 : mget (mset v u (v.length : Int)) a = some (v.length : Int) := by rw [mget_mset_ne _ _ _ _ hau]; exact ha
  have h2 : mget (mset v u (v.length : Int)) w = none := by rw [mget_mset_ne _ _ _ _ hwu]; exact hw
  refine ⟨h1, h2, ?_⟩
  simp [wlBuild, WlModel.tokenize, wordLevelTokenize, WlConfig.entries, h2]

/-- **C108.** A builder that is given nothing builds the same model as `NewWordLevel`: its only token is
`<unk>` with id 0, which it gives for every word. -/
theorem C108_default (order : List (Str × Int)) (ho : order.Perm newWlBuilder.entries) :
    wlBuild newWlBuilder order = newWordLevel ∧
    (∀ w, newWordLevel.tokenize w = .ok [⟨0, w, (0, (blen w : Int))⟩]) ∧
    (∀ t i, newWordLevel.tokenToId t = some i ↔ t = "<unk>".toList ∧ i = 0) ∧
    (∀ t i, newWordLevel.idToToken i = some t ↔ t = "<unk>".toList ∧ i = 0) := by
  have e : order = [("<unk>".toList, 0)] := List.perm_singleton.mp ho
  refine ⟨by rw [e]; rfl, ?_, ?_, ?_⟩
  · intro w
    by_cases h : w = "<unk>".toList
    · subst h; rfl
    · have : mget newWordLevel.vocab w = none := by
        simp only [newWordLevel, mget, beq_eq_false_iff_ne.mpr (Ne.symm h), Bool.false_eq_true, if_false]
      simp only [WlModel.tokenize, wordLevelTokenize, this]
      rfl
  · intro t i
    by_cases h : t = "<unk>".toList
    · subst h
      have : newWordLevel.tokenToId "<unk>".toList = some 0 := rfl
      rw [this]
      simp [eq_comm]
    · have : newWordLevel.tokenToId t = none := by
        simp only [WlModel.tokenToId, newWordLevel, mget, beq_eq_false_iff_ne.mpr (Ne.symm h), Bool.false_eq_true, if_false]
      rw [this]
      exact ⟨fun e => (by cases e), fun e => absurd e.1 h⟩
  · intro t i
    by_cases h : i = 0
    · subst h
      have : newWordLevel.idToToken 0 = some "<unk>".toList := rfl
      rw [this]
      simp [eq_comm]
    · have : newWordLevel.idToToken i = none := by simp [WlModel.idToToken, newWordLevel, mget, Ne.symm h]
      rw [this]
      simp [h]

/-- **C108, violated.** The order of the calls matters: after `UnkToken(u)` and then `Vocab(v)` with a
map without `u`, every word that is not in `v` is an error. -/
theorem C108_order_violated (u w : Str) (v : List (Str × Int)) (hu : mget v u = none) (hw : mget v w = none) :
    ∃ c', wlCalls newWlBuilder [.unkToken u, .vocab (some v)] = .ok c' ∧
      ∀ order, (wlBuild c' order).tokenize w = .err := by
  refine ⟨⟨some v, u⟩, rfl, ?_⟩
  intro order
  simp [wlBuild, WlModel.tokenize, wordLevelTokenize, WlConfig.entries, hu, hw]

/-- **C108, violated.** `UnkToken` panics after `Vocab(nil)`. -/
theorem C108_nil_violated (c : WlConfig) (u : Str) (ks : List WlCall) :
    wlCalls c (.vocab none :: .unkToken u :: ks) = .panic := rfl

/-! ### Cases -/

/-- Two words. -/
def twoWords : List (Str × Int) := [("<unk>".toList, 0), ("a".toList, 1)]

/-- A builder with two words, of which one is `<unk>`. -/
def twoConfig : WlConfig := ⟨some twoWords, "<unk>".toList⟩

theorem twoWords_map : IsMap twoWords := by unfold IsMap; decide

theorem twoWords_cases {t : Str} {i : Int} (h : mget twoWords t = some i) :
    t = "<unk>".toList ∧ i = 0 ∨ t = "a".toList ∧ i = 1 := by
  have := mem_of_mget h
  simp only [twoWords, List.mem_cons, List.not_mem_nil, or_false, Prod.mk.injEq] at this
  exact this

theorem twoWords_differ : IdsDiffer twoWords := by
  intro a b i ha hb
  rcases twoWords_cases ha with ⟨rfl, h1⟩ | ⟨rfl, h1⟩ <;> rcases twoWords_cases hb with ⟨rfl, h2⟩ | ⟨rfl, h2⟩
  · rfl
  · omega
  · omega
  · rfl

example : (wlBuild twoConfig twoWords.reverse).idToToken 1 = some "a".toList :=
  (C108_build_partial (c := twoConfig) twoWords_map twoWords_differ (List.reverse_perm _) _ _).1 (by decide)

/-- Setting `<unk>` again gives it the id 2, and 0 names nothing. -/
example : ∃ c', wlCalls twoConfig [.unkToken "<unk>".toList] = .ok c' ∧ ∀ order : List (Str × Int),
    order.Perm c'.entries → (wlBuild c' order).tokenToId "<unk>".toList = some 2 ∧
      (wlBuild c' order).idToToken 0 = none := by
  obtain ⟨c', h1, h2⟩ := C108_moved_violated (c := twoConfig) rfl twoWords_map twoWords_differ
    (by intro t i h; rcases twoWords_cases h with ⟨_, rfl⟩ | ⟨_, rfl⟩ <;> decide) (u := "<unk>".toList) (i := 0) (by decide)
  exact ⟨c', h1, fun o ho => ⟨(h2 o ho).1, (h2 o ho).2.2⟩⟩

/-- One word with the id 1: `[UNK]` gets the same id. -/
example : ∃ c', wlCalls ⟨some [("a".toList, 1)], []⟩ [.unkToken "[UNK]".toList] = .ok c' ∧
    ∀ order, (wlBuild c' order).tokenToId "a".toList = some 1 ∧
      (wlBuild c' order).tokenize "b".toList = .ok [⟨1, "b".toList, (0, 1)⟩] := by
  obtain ⟨c', h1, h2⟩ := C108_clash_violated (c := ⟨some [("a".toList, 1)], []⟩) (v := [("a".toList, 1)]) rfl
    (a := "a".toList) (u := "[UNK]".toList) (w := "b".toList) (by decide) (by decide) (by decide) (by decide)
  exact ⟨c', h1, fun o => ⟨(h2 o).1, (h2 o).2.2⟩⟩

example : ∃ c', wlCalls newWlBuilder [.vocab (some [("a".toList, 0)]), .unkToken "[UNK]".toList] = .ok c' ∧
    ∀ order, (wlBuild c' order).tokenize "b".toList = .ok [⟨1, "b".toList, (0, 1)⟩] :=
  ⟨_, rfl, fun _ => rfl⟩

end Tok
