import Verif.Whole.Taking

/-!
# C139: added tokens that take white space
-/

namespace Tok.Whole

open Tok.PreTok Tok.Added Tok.Config Tok.Regex
open Tok.Norm (NStr WF)

/-! ### Specification -/

/-- The content of a token that does not begin with white space. -/
def Solidly (c : Str) : Prop := ∃ c₀ cs, c = c₀ :: cs ∧ isS c₀ = false

/-- The added token `c₀` of the file, to be found anywhere in the text as it is and with the white space beside it that the file
says, is in the text `s`, which is `w` and then `rs`: what the token takes, and the text after it; of the other added tokens none is
in the text, or, if they are searched for in the normalized text, in what `N` gives for the texts around. -/
structure TokenTaking (cfg : List TokenConfig) (l r : Bool) (c₀ s w : Str) (rs : List (Str × Str)) (N : Str → Str) : Prop where
  solid : Solidly c₀
  taking : Taking l r c₀ s w rs
  plain : ∀ x ∈ cfg, x.content = c₀ → x.normalized = false ∧ x.singleWord = false ∧ x.lstrip = l ∧ x.rstrip = r
  rest : ∀ x ∈ cfg, x.content ≠ [] ∧ x.singleWord = false ∧ (x.content ≠ c₀ → x.normalized = false → ¬ x.content <:+: s) ∧
    (x.normalized = true → ∀ v ∈ w :: rs.map (·.2), ¬ x.content <:+: N v)

/-! ### Lemmas -/

theorem solid_ne {c : Str} (h : Solidly c) : c ≠ [] := by
  obtain ⟨_, _, rfl, _⟩ := h
  simp

theorem taken_encode {t : Tk} {l r : Bool} {c s w : Str} {rs : List (Str × Str)} (hc : c ≠ []) (h : Taking l r c s w rs)
    {i : Nat} {id : Int} (hid : id ≠ -1) (hi : t.splitRe.ids[i]? = some id)
    (h1 : t.splitRe.engine (encStr s) = (takenAt 0 w rs).map (fun m => ⟨i, m.1, m.2⟩))
    {N : Str → Str} (hn : ∀ v ∈ w :: rs.map (·.2), NormalizesPart t v (N v))
    (h2 : ∀ v ∈ w :: rs.map (·.2), t.splitNormalizedRe.engine (encStr (N v)) = []) {g : Str → List Str} (hg : CutsInto t g)
    {tok : Str → List Token} (htok : ∀ v ∈ w :: rs.map (·.2), ∀ y ∈ piecesOf g v (N v), ModelGives t tok y)
    (typeId : Int) (ot : OffsetType) :
    ∃ rows, t.encodeSingle (.raw (encStr s)) typeId ot = .ok (ofRows rows typeId) ∧
      (ofRows rows typeId).ids = ((piecesOf g w (N w)).flatMap tok).map (·.id) ++
        rs.flatMap (fun r => id :: ((piecesOf g r.2 (N r.2)).flatMap tok).map (·.id)) ∧
      (ofRows rows typeId).tokens = ((piecesOf g w (N w)).flatMap tok).map (·.value) ++
        rs.flatMap (fun r => r.1 :: ((piecesOf g r.2 (N r.2)).flatMap tok).map (·.value)) := by
  have hh := takenAt_hits hi rs 0 w
  have hmap : (rs.map (fun r => ((r.1, id), r.2))).map (fun r : Mark => r.2) = rs.map (·.2) := by
    rw [List.map_map]; rfl
  obtain ⟨rows, e1, e2, e3⟩ := several_encode (t := t) (w := w) (rs := rs.map (fun r => ((r.1, id), r.2))) (by
      intro q hq
      obtain ⟨p, hp, rfl⟩ := List.mem_map.mp hq
      obtain ⟨x, y, e, _⟩ := taking_taken h p hp
      refine ⟨?_, hid⟩
      dsimp only
      rw [e]
      simp [hc]) (by rw [← taking_head h id, h1]; exact select_hits _ 0 w _ hh) hh (N := N) (by rw [hmap]; exact hn)
    (by rw [hmap]; exact h2) hg (tok := tok) (by rw [hmap]; exact htok) typeId ot
  rw [← taking_head h id] at e1
  refine ⟨rows, e1, ?_, ?_⟩
  · rw [e2, List.flatMap_map]
  · rw [e3, List.flatMap_map]

/-- Loading the added tokens of a file, if one of them is in the text, with white space. -/
theorem load_taking {T₀ : VocabState} (h₀ : FreshModel T₀) {cfg : List TokenConfig} (wordChar : Char → Bool)
    {norm : Option (NStr → Res NStr)} {order : List PatMatch → List PatMatch} (ho : Permutes order)
    (ho' : ∀ l : List PatMatch, SortedById l → l.Pairwise (fun a b => a.start ≤ b.start) → order l = l)
    {l r : Bool} {c₀ s w : Str} {rs : List (Str × Str)} {N : Str → Str} (ht : TokenTaking cfg l r c₀ s w rs N)
    (hf : ∃ x ∈ cfg, x.content = c₀ ∧ (x.special = true ∨ mget T₀.vocab c₀ = none)) :
    ∃ T re reN i id, loadAdded T₀ cfg = .ok T ∧ buildSet wordChar norm order T.splitRe = .ok re ∧
      buildSet wordChar norm order T.splitNormalizedRe = .ok reN ∧ re.ids[i]? = some id ∧
      re.engine (encStr s) = (takenAt 0 w rs).map (fun m => ⟨i, m.1, m.2⟩) ∧
      (∀ v ∈ w :: rs.map (·.2), reN.engine (encStr (N v)) = []) ∧ T.tokenToId c₀ = some id ∧ 0 ≤ id ∧ T.idToToken id = some c₀ ∧
      (∀ c i, mget T₀.vocab c = some i → T.idToToken i = some c) ∧
      (∀ c, T.isSpecial c = true ↔ c ≠ [] ∧ ∃ d ∈ cfg, d.special = true ∧ d.content = c) := by
  obtain ⟨T₁, T, e, r1, r2, _⟩ := load_steps h₀ cfg
  obtain ⟨f1, f2, f3, f4⟩ := C71_flags h₀ cfg T e
  have inv := (r2.full (r1.full h₀.full)).inv
  have back : ∀ p ∈ T.splitRe ++ T.splitNormalizedRe, ∃ d ∈ cfg, p.1 = d.token := by
    intro p hp
    obtain ⟨d, hd, g1, g2, g3, g4, g5, _⟩ := f1 p hp
    refine ⟨d, hd, ?_⟩
    obtain ⟨⟨_, _, _, _, _⟩, _⟩ := p
    simp only [TokenConfig.token] at *
    simp [g1, g2, g3, g4, g5]
  have habs : ∀ d ∈ cfg, ∀ t, ¬ d.content <:+: t → Absent norm t d.token := by
    intro d hd t h
    obtain ⟨h0, h1, _⟩ := ht.rest d hd
    exact ⟨h0, d.content, h0, h, fun _ => rfl, fun h => absurd (h1.symm.trans h) (by simp)⟩
  -- the entry of the token
  obtain ⟨d, hd, hdc, hd'⟩ := hf
  obtain ⟨p, hp, hpc⟩ := f4 d hd (by rw [hdc]; exact (solid_ne ht.solid)) (by rw [hdc]; exact hd')
  rw [hdc] at hpc
  obtain ⟨d₁, hd₁, hp₁⟩ := back p hp
  have hc₁ : d₁.content = c₀ := by rw [← hpc, hp₁]; rfl
  obtain ⟨p1, p2, p3, p4⟩ := ht.plain d₁ hd₁ hc₁
  have hpn : p.1.normalized = false := by rw [hp₁]; exact p1
  have hp : p ∈ T.splitRe := by
    rcases List.mem_append.mp hp with h | h
    · exact h
    · rw [f3 p h] at hpn; cases hpn
  obtain ⟨i, hi⟩ := List.getElem?_of_mem hp
  have huniq := load_unique h₀ cfg T e
  have hid : T.tokenToId c₀ = some p.2 := by
    obtain ⟨d', _, g1, _, _, _, _, g6⟩ := f1 p (by simp [hp])
    rw [← g1, hpc] at g6
    exact g6
  obtain ⟨re, k1, k2, k3⟩ := set_taking wordChar (norm := norm) order ho' (es := T.splitRe) (s := s) (i := i) (a := p.1) (id := p.2)
    (w := w) (rs := rs) hi (by rw [hp₁]; exact p2) (by rw [hpc]; exact ht.solid) (by
      intro j q hj hne
      obtain ⟨d', hd', hq⟩ := back q (List.mem_append_left _ (List.mem_of_getElem? hj))
      have hn := f2 q (List.mem_of_getElem? hj)
      rw [hq] at hn ⊢
      refine habs d' hd' s ((ht.rest d' hd').2.2.1 ?_ hn)
      intro hc
      apply hne
      have hlj := (List.getElem?_eq_some_iff.mp hj).1
      have hli := (List.getElem?_eq_some_iff.mp hi).1
      have key := List.pairwise_iff_getElem.mp huniq
      have same : q.1.content = p.1.content := by rw [hpc, hq]; exact hc
      rcases Nat.lt_trichotomy j i with h | h | h
      · refine absurd ?_ (key j i (by simpa using hlj) (by simpa using hli) h)
        rw [List.getElem_map, List.getElem_map, (List.getElem?_eq_some_iff.mp hj).2, (List.getElem?_eq_some_iff.mp hi).2, same]
      · exact h
      · refine absurd ?_ (key i j (by simpa using hli) (by simpa using hlj) h)
        rw [List.getElem_map, List.getElem_map, (List.getElem?_eq_some_iff.mp hj).2, (List.getElem?_eq_some_iff.mp hi).2, same]) (by
      have e3 : p.1.lstrip = l := by rw [hp₁]; exact p3
      have e4 : p.1.rstrip = r := by rw [hp₁]; exact p4
      rw [e3, e4, hpc]; exact ht.taking)
  -- the tokens of the normalized text
  have hN : ∀ v ∈ w :: rs.map (·.2), ∃ reN, buildSet wordChar norm order T.splitNormalizedRe = .ok reN ∧ reN.engine (encStr (N v)) = [] := by
    intro w hw
    apply set_quiet wordChar order ho
    intro q hq
    obtain ⟨d', hd', hq'⟩ := back q (List.mem_append_right _ hq)
    have hn := f3 q hq
    rw [hq'] at hn ⊢
    exact habs d' hd' _ ((ht.rest d' hd').2.2.2 hn w hw)
  obtain ⟨reN, q1, _⟩ := hN w (by simp)
  refine ⟨T, re, reN, i, p.2, e, k1, q1, k2, k3, ?_, hid, (inv.bound _ _ hid).1, (inv.roundtrip _ _).1 hid, ?_, ?_⟩
  · intro w hw
    obtain ⟨reN', g1, g2⟩ := hN w hw
    rw [q1] at g1
    cases g1
    exact g2
  · intro c i hc
    exact (inv.roundtrip c i).1 ((C71_ids h₀ cfg T e).1 c i hc)
  · obtain ⟨T', e', _, h⟩ := C71_known h₀ cfg
    rw [e] at e'
    cases e'
    exact h

/-- Encoding a text with an added token in it with a tokenizer from a file. -/
theorem file_taking {E : FileEnv} (ho : Permutes E.order)
    (ho' : ∀ l : List PatMatch, SortedById l → l.Pairwise (fun a b => a.start ≤ b.start) → E.order l = l)
    {c : FileConfig} {a : AnyModel} (ha : createModel (c.model.getD []) (c.decoder.getD []) = .ok a)
    (hst : FreshModel (vocabOf (c.model.getD []) a))
    {l r : Bool} {c₀ s w : Str} {rs : List (Str × Str)} {N : Str → Str} (ht : TokenTaking c.addedTokens l r c₀ s w rs N)
    (hf : ∃ x ∈ c.addedTokens, x.content = c₀ ∧ (x.special = true ∨ mget (vocabOf (c.model.getD []) a).vocab c₀ = none))
    (hn : ∀ v ∈ w :: rs.map (·.2), NormSection E c.normalizer v (N v)) {g : Str → List Str} (hp : PreSection E c.preTokenizer g)
    {before after : List (Str × Int)} (hproc : Surrounds c.postProcessor before after)
    {dec : Option DecCfg} (hd : fromSection createDec c.decoder = .ok dec)
    (htr : c.truncation = none) (hpad : c.padding = none) :
    ∃ (b : Built) (id : Int), fromReader E (some c) = .ok b ∧ b.decoder = dec.map (decodeFn E) ∧
      b.state.tokenToId c₀ = some id ∧ b.state.idToToken id = some c₀ ∧
      (∀ c' i, mget (vocabOf (c.model.getD []) a).vocab c' = some i → b.state.idToToken i = some c' ∧ b.state.tokenToId c' = some i) ∧
      (∀ c', b.state.isSpecial c' = true ↔ c' ≠ [] ∧ ∃ d ∈ c.addedTokens, d.special = true ∧ d.content = c') ∧
      (∀ tok : Str → List Token, (∀ u ∈ w :: rs.map (·.2), ∀ v ∈ piecesOf g u (N u), modelFn E a (encStr v) = .ok (some (tok v)) ∧ tok v ≠ [] ∧
          ∀ x ∈ tok v, 0 ≤ x.offsets.1 ∧ x.offsets.1 ≤ x.offsets.2) →
        ∃ e, b.tok.encodeSingle (encStr s) [true] = .ok (some e) ∧
          e.tokens = before.map (·.1) ++ (((piecesOf g w (N w)).flatMap tok).map (·.value) ++
            rs.flatMap (fun r => r.1 :: ((piecesOf g r.2 (N r.2)).flatMap tok).map (·.value))) ++ after.map (·.1) ∧
          e.ids = before.map (·.2) ++ (((piecesOf g w (N w)).flatMap tok).map (·.id) ++
            rs.flatMap (fun r => id :: ((piecesOf g r.2 (N r.2)).flatMap tok).map (·.id))) ++ after.map (·.2)) := by
  obtain ⟨n, en, _⟩ := normSection_part (hn w (by simp))
  obtain ⟨T, re, reN, i, id, k1, k2, k3, k4, k5, k6, k7, k8, k9, k10, k11⟩ := load_taking hst E.wordChar
    (norm := n.map (normalizerOf E)) ho ho' ht hf
  obtain ⟨p, ep, hcut⟩ := preSection_cuts hp
  obtain ⟨pc, p1, p2⟩ := surrounds_post hproc
  refine ⟨_, id, fromReader_ok (tr := none) ha en ep p1 hd k1 k2 k3 (by rw [htr]; rfl), rfl, k7, k9, ?_, k11, ?_⟩
  · intro c' i h
    exact ⟨k10 c' i h, (C71_ids hst _ T k1).1 c' i h⟩
  · intro tok hm
    obtain ⟨rows, g1, g2, g3⟩ := taken_encode (t := ⟨re, reN, n.map (normalizerOf E), p.map (preFn E), some (modelFn E a)⟩)
      (solid_ne ht.solid) ht.taking (i := i) (id := id) (by omega) k4 k5 (N := N) (by
        intro w hw
        obtain ⟨n', en', h⟩ := normSection_part (hn w hw)
        obtain rfl : n' = n := by rw [en] at en'; exact (Res.ok.inj en').symm
        exact h _ rfl) k6 (hcut _ rfl) (tok := tok)
      (fun w hw v hv => ⟨_, rfl, (hm w hw v hv).1, (hm w hw v hv).2.1, (hm w hw v hv).2.2⟩) 0 .byte
    obtain ⟨r, l1, l2, l3⟩ := p2 rows
    refine ⟨r, ?_, by rw [l3, g3], by rw [l2, g2]⟩
    rw [hpad]
    simp only [createPadding, Tokenizer.encodeSingle, Tokenizer.encode, Tokenizer.encodeWith, g1, Res.bind_ok, List.headD_cons]
    exact l1

/-! ### C139 -/

/-- C139: in a text with an added token in it that takes white space, every occurrence of the token becomes one entry with its id,
and the texts around, without the white space that it takes, are encoded as they are alone. Partial: at most one white space on each
side is taken (`Taking`); one token that does not begin with white space and is searched for in the text as it is, with no other added
token in the text. -/
theorem C139_takes_partial (t : Tk) (wordChar : Char → Bool) (order : List PatMatch → List PatMatch) (ho : Permutes order)
    (ho' : ∀ l : List PatMatch, SortedById l → l.Pairwise (fun a b => a.start ≤ b.start) → order l = l)
    (before after : List (AddedToken × Int)) (a : AddedToken) (id : Int)
    (hset : buildSet wordChar t.normalizer order (before ++ (a, id) :: after) = .ok t.splitRe) (hid : 0 ≤ id)
    (h1 : a.singleWord = false) (hc : Solidly a.content)
    (s w : Str) (rs : List (Str × Str)) (hm : Taking a.lstrip a.rstrip a.content s w rs)
    (hother : ∀ x ∈ before ++ after, Absent t.normalizer s x.1)
    (N : Str → Str) (hn : ∀ v ∈ w :: rs.map (·.2), NormalizesPart t v (N v))
    (hN : ∀ v ∈ w :: rs.map (·.2), t.splitNormalizedRe.engine (encStr (N v)) = []) (g : Str → List Str) (hg : CutsInto t g)
    (tok : Str → List Token) (htok : ∀ v ∈ w :: rs.map (·.2), ∀ y ∈ piecesOf g v (N v), ModelGives t tok y)
    (typeId : Int) (ot : OffsetType) :
    ∃ (e : Encoding) (f : Str → Encoding), t.encodeSingle (.raw (encStr s)) typeId ot = .ok e ∧
      (∀ v ∈ w :: rs.map (·.2), t.encodeSingle (.raw (encStr v)) typeId ot = .ok (f v)) ∧
      e.ids = (f w).ids ++ rs.flatMap (fun r => id :: (f r.2).ids) ∧
      e.tokens = (f w).tokens ++ rs.flatMap (fun r => r.1 :: (f r.2).tokens) := by
  have hother' : ∀ j e, (before ++ (a, id) :: after)[j]? = some e → j ≠ before.length → Absent t.normalizer s e.1 := by
    intro j e hj hne
    apply hother
    rcases Nat.lt_or_ge j before.length with h | h
    · rw [List.getElem?_append_left h] at hj
      exact List.mem_append_left _ (List.mem_of_getElem? hj)
    · rw [List.getElem?_append_right h] at hj
      obtain ⟨k, hk⟩ : ∃ k, j - before.length = k + 1 := ⟨j - before.length - 1, by omega⟩
      rw [hk, List.getElem?_cons_succ] at hj
      exact List.mem_append_right _ (List.mem_of_getElem? hj)
  obtain ⟨re, k1, k2, k3⟩ := set_taking wordChar (norm := t.normalizer) order ho' (es := before ++ (a, id) :: after) (s := s)
    (i := before.length) (a := a) (id := id) (by simp) h1 hc hother' hm
  rw [hset] at k1
  cases k1
  obtain ⟨rows, e1, e2, e3⟩ := taken_encode (solid_ne hc) hm (by omega) k2 k3 hn hN hg htok typeId ot
  have alone : ∀ v ∈ w :: rs.map (·.2), ∃ e, t.encodeSingle (.raw (encStr v)) typeId ot = .ok e ∧
      e.ids = ((piecesOf g v (N v)).flatMap tok).map (·.id) ∧ e.tokens = ((piecesOf g v (N v)).flatMap tok).map (·.value) := by
    intro v hv
    obtain ⟨re, q1, q2⟩ := set_quiet wordChar (norm := t.normalizer) order ho (es := before ++ (a, id) :: after) (s := v) (by
      intro x hx
      rcases List.mem_append.mp hx with h | h
      · exact (hother x (by simp [h])).mono (taking_infix hm v hv)
      · rcases List.mem_cons.mp h with rfl | h
        · exact ⟨solid_ne hc, a.content, solid_ne hc, taking_free (solid_ne hc) hm v hv, fun _ => rfl,
            fun h => absurd (h1.symm.trans h) (by simp)⟩
        · exact (hother x (by simp [h])).mono (taking_infix hm v hv))
    rw [hset] at q1
    cases q1
    obtain ⟨e, g1, g2, g3, _⟩ := C100_pieces t v (N v) g tok (hn v hv).normalizes q2 (hN v hv) hg (htok v hv) typeId ot
    exact ⟨e, g1, g2, g3⟩
  classical
  have hw : w ∈ w :: rs.map (·.2) := by simp
  have hr : ∀ r ∈ rs, r.2 ∈ w :: rs.map (·.2) := fun r hr => List.mem_cons_of_mem _ (List.mem_map.mpr ⟨r, hr, rfl⟩)
  refine ⟨_, fun v => if h : v ∈ w :: rs.map (·.2) then (alone v h).choose else ofRows [] 0, e1, ?_, ?_, ?_⟩
  · intro v hv
    simp only [hv, dif_pos]
    exact (alone v hv).choose_spec.1
  · rw [e2]
    simp only [hw, dif_pos, (alone w hw).choose_spec.2.1]
    refine congrArg (_ ++ ·) ?_
    rw [List.flatMap_def, List.flatMap_def]
    congr 1
    apply List.map_congr_left
    intro r h
    simp only [hr r h, dif_pos, (alone r.2 (hr r h)).choose_spec.2.1]
  · rw [e3]
    simp only [hw, dif_pos, (alone w hw).choose_spec.2.2]
    refine congrArg (_ ++ ·) ?_
    rw [List.flatMap_def, List.flatMap_def]
    congr 1
    apply List.map_congr_left
    intro r h
    simp only [hr r h, dif_pos, (alone r.2 (hr r h)).choose_spec.2.2]

/-- C139 (files): the same with the tokenizer of a file, whatever the model, and with special tokens around the text. -/
theorem C139_file_partial (E : FileEnv) (ho : ∀ l, (E.order l).Perm l)
    (ho' : ∀ l : List PatMatch, SortedById l → l.Pairwise (fun a b => a.start ≤ b.start) → E.order l = l)
    (c : FileConfig) (a : AnyModel) (ha : createModel (c.model.getD []) (c.decoder.getD []) = .ok a)
    (hst : FreshModel (vocabOf (c.model.getD []) a)) (dec : Option DecCfg) (hd : fromSection createDec c.decoder = .ok dec)
    (htr : c.truncation = none) (hpad : c.padding = none) (l r : Bool) (c₀ s w : Str) (rs : List (Str × Str)) (N : Str → Str)
    (hin : TokenTaking c.addedTokens l r c₀ s w rs N)
    (hf : ∃ x ∈ c.addedTokens, x.content = c₀ ∧ (x.special = true ∨ mget (vocabOf (c.model.getD []) a).vocab c₀ = none))
    (hn : ∀ v ∈ w :: rs.map (·.2), NormSection E c.normalizer v (N v)) (g : Str → List Str) (hp : PreSection E c.preTokenizer g)
    (before after : List (Str × Int)) (hproc : Surrounds c.postProcessor before after)
    (tok : Str → List Token) (hm : ∀ u ∈ w :: rs.map (·.2), ∀ v ∈ piecesOf g u (N u), modelFn E a (encStr v) = .ok (some (tok v)) ∧
      tok v ≠ [] ∧ ∀ x ∈ tok v, 0 ≤ x.offsets.1 ∧ x.offsets.1 ≤ x.offsets.2) :
    ∃ (b : Built) (id : Int) (e : Encoding) (f : Str → List (Str × Int)), fromReader E (some c) = .ok b ∧
      b.state.tokenToId c₀ = some id ∧
      (∀ v ∈ w :: rs.map (·.2), ∃ e', b.tok.encodeSingle (encStr v) [true] = .ok (some e') ∧
        e'.tokens = before.map (·.1) ++ (f v).map (·.1) ++ after.map (·.1) ∧
        e'.ids = before.map (·.2) ++ (f v).map (·.2) ++ after.map (·.2)) ∧
      b.tok.encodeSingle (encStr s) [true] = .ok (some e) ∧
      e.tokens = before.map (·.1) ++ ((f w).map (·.1) ++ rs.flatMap (fun r => r.1 :: (f r.2).map (·.1))) ++ after.map (·.1) ∧
      e.ids = before.map (·.2) ++ ((f w).map (·.2) ++ rs.flatMap (fun r => id :: (f r.2).map (·.2))) ++ after.map (·.2) := by
  obtain ⟨b, id, h1, _, h2, _, _, _, h3⟩ := file_taking ho ho' ha hst hin hf hn hp hproc hd htr hpad
  obtain ⟨e, k1, k2, k3⟩ := h3 tok hm
  have hfst : ∀ q : List Token, (q.map (fun x => (x.value, x.id))).map (·.1) = q.map (·.value) := by
    intro q; rw [List.map_map]; rfl
  have hsnd : ∀ q : List Token, (q.map (fun x => (x.value, x.id))).map (·.2) = q.map (·.id) := by
    intro q; rw [List.map_map]; rfl
  refine ⟨b, id, e, fun v => ((piecesOf g v (N v)).flatMap tok).map (fun x => (x.value, x.id)), h1, h2, ?_, k1, ?_, ?_⟩
  · intro v hv
    have hin' : TokenTaking c.addedTokens l r c₀ v v [] N := by
      refine ⟨hin.solid, .last v (taking_free (solid_ne hin.solid) hin.taking v hv), hin.plain, fun x hx => ?_⟩
      obtain ⟨q1, q2, q3, q4⟩ := hin.rest x hx
      refine ⟨q1, q2, fun g1 g2 g3 => q3 g1 g2 (List.IsInfix.trans g3 (taking_infix hin.taking v hv)), fun g1 u hu => ?_⟩
      have hu : u = v := by simpa using hu
      subst hu
      exact q4 g1 u hv
    obtain ⟨b', id', h1', _, _, _, _, _, h3'⟩ := file_taking ho ho' ha hst hin' hf (by
      intro u hu
      have hu : u = v := by simpa using hu
      subst hu
      exact hn u hv) hp hproc hd htr hpad
    rw [h1] at h1'
    cases h1'
    obtain ⟨e', g1, g2, g3⟩ := h3' tok (by
      intro u hu
      have hu : u = v := by simpa using hu
      subst hu
      exact hm u hv)
    exact ⟨e', g1, by rw [g2, hfst]; simp, by rw [g3, hsnd]; simp⟩
  · rw [k2]; simp only [hfst]
  · rw [k3]; simp only [hsnd]

/-- C139 is violated by two white spaces: a token with "lstrip" leaves the first one in the text before it. -/
theorem C139_all_violated (t : Tk) (wordChar : Char → Bool) (order : List PatMatch → List PatMatch) (ho : Permutes order)
    (ho' : ∀ l : List PatMatch, SortedById l → l.Pairwise (fun a b => a.start ≤ b.start) → order l = l)
    (before after : List (AddedToken × Int)) (a : AddedToken) (id : Int)
    (hset : buildSet wordChar t.normalizer order (before ++ (a, id) :: after) = .ok t.splitRe) (hid : 0 ≤ id)
    (h1 : a.singleWord = false) (hl : a.lstrip = true) (hc : Solidly a.content)
    (u : Str) (x y : Char) (_ : isS x = true) (hy : isS y = true)
    (hfirst : ∀ p q, u ++ [x, y] ++ a.content = p ++ a.content ++ q → (u ++ [x, y]).length ≤ p.length)
    (hother : ∀ z ∈ before ++ after, Absent t.normalizer (u ++ [x, y] ++ a.content) z.1)
    (N : Str → Str) (hn : ∀ v ∈ [u ++ [x], []], NormalizesPart t v (N v))
    (hN : ∀ v ∈ [u ++ [x], []], t.splitNormalizedRe.engine (encStr (N v)) = []) (g : Str → List Str) (hg : CutsInto t g)
    (tok : Str → List Token) (htok : ∀ v ∈ [u ++ [x], []], ∀ y ∈ piecesOf g v (N v), ModelGives t tok y)
    (typeId : Int) (ot : OffsetType) :
    ∃ e e₁ e₂ : Encoding, t.encodeSingle (.raw (encStr (u ++ [x, y] ++ a.content))) typeId ot = .ok e ∧
      t.encodeSingle (.raw (encStr (u ++ [x]))) typeId ot = .ok e₁ ∧ t.encodeSingle (.raw (encStr [])) typeId ot = .ok e₂ ∧
      e.ids = e₁.ids ++ id :: e₂.ids ∧
      ∀ e₀ : Encoding, t.encodeSingle (.raw (encStr u)) typeId ot = .ok e₀ → e₀.ids ≠ e₁.ids → e.ids ≠ e₀.ids ++ id :: e₂.ids := by
  have hs : u ++ [x, y] ++ a.content = (u ++ [x]) ++ ([y] ++ a.content ++ []) ++ [] := by simp
  have hm : Taking a.lstrip a.rstrip a.content (u ++ [x, y] ++ a.content) (u ++ [x]) [([y] ++ a.content ++ [], [])] := by
    rw [hs]
    refine .cons _ _ _ _ _ _ ?_ (.inr ⟨hl, y, hy, rfl⟩) (.inl rfl) (by simp) (by simp) (.last [] ?_)
    · intro p q h
      have := hfirst p q (by rw [hs]; exact h)
      simpa using this
    · rintro ⟨p, q, h⟩
      have := solid_ne hc
      simp [this] at h
  obtain ⟨e, f, e1, e2, e3, _⟩ := C139_takes_partial t wordChar order ho ho' before after a id hset hid h1 hc _ _ _ hm hother N hn hN
    g hg tok htok typeId ot
  have e3 : e.ids = (f (u ++ [x])).ids ++ id :: (f []).ids := by rw [e3]; simp
  refine ⟨e, f (u ++ [x]), f [], e1, e2 _ (by simp), e2 _ (by simp), e3, fun e₀ _ hne h => hne ?_⟩
  rw [e3] at h
  exact (List.append_cancel_right h).symm

/-! ### A case -/

/-- The example file of C131, with a token that takes white space on its left. -/
def exampleTakingFile : FileConfig :=
  { exampleWordFile with addedTokens := [{ id := 3, content := ['[', 'M', ']'], special := true, lstrip := true }] }

theorem example_taking_in : TokenTaking exampleTakingFile.addedTokens true false "[M]".toList "a-b [M]b-c[M]".toList
    "a-b".toList [(" [M]".toList, "b-c".toList), ("[M]".toList, [])] id where
  solid := ⟨_, _, rfl, by decide⟩
  taking := by
    refine .cons "a-b".toList " ".toList [] "b-c[M]".toList _ _ ?_ (.inr ⟨rfl, ' ', by decide, rfl⟩) (.inl rfl) (by simp) (by simp)
      (.cons "b-c".toList [] [] [] _ _ ?_ (.inl rfl) (.inl rfl) (by decide) (by simp) (.last [] (by decide)))
    · intro x y h
      rcases x with _ | ⟨x1, _ | ⟨x2, _ | ⟨x3, _ | ⟨x4, x⟩⟩⟩⟩
      · cases h
      · cases h
      · cases h
      · cases h
      · exact Nat.le_add_left 4 _
    · intro x y h
      rcases x with _ | ⟨x1, _ | ⟨x2, _ | ⟨x3, x⟩⟩⟩
      · cases h
      · cases h
      · cases h
      · exact Nat.le_add_left 3 _
  plain := by
    intro x hx _
    obtain rfl : x = { id := 3, content := ['[', 'M', ']'], special := true, lstrip := true } := by
      simpa [exampleTakingFile] using hx
    exact ⟨rfl, rfl, rfl, rfl⟩
  rest := by
    intro x hx
    obtain rfl : x = { id := 3, content := ['[', 'M', ']'], special := true, lstrip := true } := by
      simpa [exampleTakingFile] using hx
    exact ⟨by decide, rfl, fun h => absurd rfl h, nofun⟩

/-- The blank before the first token belongs to it. -/
example (E : FileEnv) (ho : ∀ l, (E.order l).Perm l)
    (ho' : ∀ l : List PatMatch, SortedById l → l.Pairwise (fun a b => a.start ≤ b.start) → E.order l = l) :
    ∃ b e, fromReader E (some exampleTakingFile) = .ok b ∧
      b.tok.encodeSingle (encStr "a-b [M]b-c[M]".toList) [true] = .ok (some e) ∧
      ∃ x y z, e.tokens = x ++ " [M]".toList :: y ++ "[M]".toList :: z := by
  obtain ⟨f, un, m1, m2, m3, m4⟩ := C69_wordLevel (exampleTakingFile.model.getD []) [] exampleWordVocab none (.given _ (by rfl)) (by rfl)
    (by unfold IsOpt; rfl)
  have hun : un = "<unk>".toList := m4 (.inl rfl)
  have hst : FreshModel (vocabOf (exampleTakingFile.model.getD []) (.wordLevel f un)) :=
    fresh_good (v := exampleWordVocab) ⟨by decide +kernel, by decide +kernel, by decide +kernel⟩
  obtain ⟨b, id, e, F, h1, _, h2, h3, h4, h5⟩ := C139_file_partial E ho ho' exampleTakingFile (.wordLevel f un) m1 hst none rfl rfl rfl _ _ _ _ _ _
    _ example_taking_in ⟨_, List.mem_singleton.2 rfl, rfl, .inl rfl⟩ (fun w _ => .inl ⟨rfl, rfl⟩) _
    (.inr ⟨_, _, rfl, .delimiter _ '-' (by unfold TypeIs; rfl) (by unfold StrIs; rfl), .delimiter '-'⟩) [] [] (.inl ⟨rfl, rfl, rfl⟩)
    (fun v => [⟨(wordId exampleWordVocab "<unk>".toList v).getD 0, v, (0, ((blen v : Nat) : Int))⟩]) (by
      intro u _ v _
      refine ⟨?_, by simp, ?_⟩
      · simp only [modelFn, wordLevelModel, wordLevelTokenize, decStr_enc, m2, hun, wordId]
        have hu : mget exampleWordVocab "<unk>".toList = some 2 := by decide +kernel
        cases mget exampleWordVocab v with
        | some i => rfl
        | none => rw [hu]; rfl
      · intro x hx
        rw [List.mem_singleton] at hx
        subst hx
        dsimp only
        omega)
  exact ⟨b, e, h1, h3, _, _, _, h4.trans (by simp; rfl)⟩

end Tok.Whole
