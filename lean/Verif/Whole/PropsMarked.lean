import Verif.Whole.Marked
import Verif.Whole.PropsFileWords
import Verif.Whole.PropsFileBert
import Verif.Vocab.Unique

/-!
# C135: added tokens in texts
-/

namespace Tok.Whole

open Tok.PreTok Tok.Added Tok.Config Tok.Regex
open Tok.Norm (NStr WF)

/-! ### Specification -/

/-- The added token `c₀` of the file, to be found anywhere in the text as it is, is in the text `s`, with the texts `ws`
around it; of the other added tokens none is in the text, or, if they are searched for in the normalized text, in what `N`
gives for the texts around. -/
structure TokenInText (l : List TokenConfig) (c₀ s : Str) (ws : List Str) (N : Str → Str) : Prop where
  filled : c₀ ≠ []
  marked : Marked c₀ s ws
  plain : ∀ x ∈ l, x.content = c₀ → x.normalized = false ∧ x.singleWord = false ∧ x.lstrip = false ∧ x.rstrip = false
  rest : ∀ x ∈ l, x.content ≠ [] ∧ x.singleWord = false ∧ (x.content ≠ c₀ → x.normalized = false → ¬ x.content <:+: s) ∧
    (x.normalized = true → ∀ w ∈ ws, ¬ x.content <:+: N w)

/-! ### Lemmas -/

theorem marked_infix {c s : Str} {ws : List Str} (h : Marked c s ws) : ∀ w ∈ ws, w <:+: s := by
  induction h with
  | last w _ => intro v hv; rw [List.mem_singleton] at hv; subst hv; exact List.infix_refl _
  | cons w r ws _ _ ih =>
    intro v hv
    rcases List.mem_cons.mp hv with rfl | hv
    · exact ⟨[], c ++ r, by simp⟩
    · obtain ⟨a, b, e⟩ := ih v hv
      exact ⟨w ++ c ++ a, b, by rw [← e]; simp⟩

theorem marked_free {c s : Str} (hc : c ≠ []) {ws : List Str} (h : Marked c s ws) : ∀ w ∈ ws, ¬ c <:+: w := by
  induction h with
  | last w hw => intro v hv; rw [List.mem_singleton] at hv; subst hv; exact hw
  | cons w r ws hl _ ih =>
    intro v hv
    rcases List.mem_cons.mp hv with rfl | hv
    · rintro ⟨a, b, e⟩
      have := hl a (b ++ c ++ r) (by rw [← e]; simp)
      have h1 := congrArg List.length e
      simp only [List.length_append] at h1
      have := List.length_pos_iff.mpr hc
      omega
    · exact ih v hv

theorem Absent.mono {norm : Option (NStr → Res NStr)} {s w : Str} {t : AddedToken} (h : Absent norm s t) (hw : w <:+: s) :
    Absent norm w t := by
  obtain ⟨h0, v, h1, h2, h3⟩ := h
  exact ⟨h0, v, h1, fun h => h2 (List.IsInfix.trans h hw), h3⟩

theorem normSection_part {E : FileEnv} {o : Option (List (Str × Val))} {s u : Str} (h : NormSection E o s u) :
    ∃ n, fromSection (createNorm E.cfg) o = .ok n ∧
      ∀ t : Tk, t.normalizer = n.map (normalizerOf E) → NormalizesPart t s u := by
  rcases h with ⟨rfl, rfl⟩ | ⟨n, cfg, rfl, h1, h2⟩ | ⟨n, cfg, rfl, h1, h2⟩ | ⟨n, cl, l, ch, a, rfl, h1, h2⟩
  · exact ⟨none, rfl, fun t ht => .inl ⟨ht, rfl⟩⟩
  · exact ⟨_, fromSection_some (C70_normalizer_partial E.cfg n _ h1), fun t ht => .inr (.inr h2)⟩
  · refine ⟨_, fromSection_some (C70_normalizer_partial E.cfg n _ h1), fun t ht => .inr (.inl ⟨_, ht, fun x hx => ?_⟩)⟩
    obtain ⟨n', e1, e2, e3⟩ := firstForm_works h2 x hx
    exact ⟨n', by simp only [normalizerOf, e1, Res.bind_ok], e2, e3⟩
  · refine ⟨_, fromSection_some (C70_normalizer_partial E.cfg n _ h1), fun t ht => .inr (.inl ⟨_, ht, fun x hx => ?_⟩)⟩
    obtain ⟨g1, g2⟩ := fresh_same hx
    have hu : (if l = true then u else s) = u := by
      cases hl : l with
      | true => rfl
      | false => exact (h2.cased hl).symm
    obtain ⟨n', e1, e2, _⟩ := Norm.bert_same ⟨cl, l, ch, a⟩ E.tables g1 g2 (ds := u) h2.clean h2.cjk h2.lower (by
      dsimp only; rw [hu]; exact h2.accents)
    dsimp only at e2
    rw [hu] at e2
    exact ⟨n', by rw [bert_normalizerOf, e1], e2.wf, e2.text⟩

/-- Loading the added tokens of a file, if one of them is in the text. -/
theorem load_marked {T₀ : VocabState} (h₀ : FreshModel T₀) {cfg : List TokenConfig} (wordChar : Char → Bool)
    {norm : Option (NStr → Res NStr)} {order : List PatMatch → List PatMatch} (ho : Permutes order)
    (ho' : ∀ l : List PatMatch, SortedById l → l.Pairwise (fun a b => a.start ≤ b.start) → order l = l)
    {c₀ s : Str} {ws : List Str} {N : Str → Str} (ht : TokenInText cfg c₀ s ws N)
    (hf : ∃ x ∈ cfg, x.content = c₀ ∧ (x.special = true ∨ mget T₀.vocab c₀ = none)) :
    ∃ T re reN i id, loadAdded T₀ cfg = .ok T ∧ buildSet wordChar norm order T.splitRe = .ok re ∧
      buildSet wordChar norm order T.splitNormalizedRe = .ok reN ∧ re.ids[i]? = some id ∧
      re.engine (encStr s) = (places c₀ 0 ws).map (fun m => ⟨i, m.1, m.2⟩) ∧
      (∀ w ∈ ws, reN.engine (encStr (N w)) = []) ∧ T.tokenToId c₀ = some id ∧ 0 ≤ id ∧ T.idToToken id = some c₀ ∧
      (∀ c i, mget T₀.vocab c = some i → T.idToToken i = some c) ∧
      (∀ c, T.isSpecial c = true ↔ c ≠ [] ∧ ∃ d ∈ cfg, d.special = true ∧ d.content = c) := by
  obtain ⟨T₁, T, e, r1, r2, _⟩ := load_steps h₀ cfg
  obtain ⟨f1, f2, f3, f4⟩ := C71_flags h₀ cfg T e
  have inv := (r2.full (r1.full h₀.full)).inv
  have back : ∀ p ∈ T.splitRe ++ T.splitNormalizedRe, ∃ d ∈ cfg, p.1 = d.token := by
    intro p hp
    obtain ⟨d, hd, g1, g2, g3, g4, g5, _⟩ := f1 p hp
    refine ⟨d, hd, ?_⟩
    obtain ⟨⟨_, _, _, _, _⟩, _⟩ := p
    simp only [TokenConfig.token] at *
    simp [g1, g2, g3, g4, g5]
  have habs : ∀ d ∈ cfg, ∀ t, ¬ d.content <:+: t → Absent norm t d.token := by
    intro d hd t h
    obtain ⟨h0, h1, _⟩ := ht.rest d hd
    exact ⟨h0, d.content, h0, h, fun _ => rfl, fun h => absurd (h1.symm.trans h) (by simp)⟩
  -- the entry of the token
  obtain ⟨d, hd, hdc, hd'⟩ := hf
  obtain ⟨p, hp, hpc⟩ := f4 d hd (by rw [hdc]; exact ht.filled) (by rw [hdc]; exact hd')
  rw [hdc] at hpc
  obtain ⟨d₁, hd₁, hp₁⟩ := back p hp
  have hc₁ : d₁.content = c₀ := by rw [← hpc, hp₁]; rfl
  obtain ⟨p1, p2, p3, p4⟩ := ht.plain d₁ hd₁ hc₁
  have hpn : p.1.normalized = false := by rw [hp₁]; exact p1
  have hp : p ∈ T.splitRe := by
    rcases List.mem_append.mp hp with h | h
    · exact h
    · rw [f3 p h] at hpn; cases hpn
  obtain ⟨i, hi⟩ := List.getElem?_of_mem hp
  have huniq := load_unique h₀ cfg T e
  have hid : T.tokenToId c₀ = some p.2 := by
    obtain ⟨d', _, g1, _, _, _, _, g6⟩ := f1 p (by simp [hp])
    rw [← g1, hpc] at g6
    exact g6
  obtain ⟨re, k1, k2, k3⟩ := set_marked wordChar (norm := norm) order ho' (es := T.splitRe) (s := s) (i := i) (a := p.1) (id := p.2)
    (ws := ws) hi (by rw [hp₁]; exact p2) (by rw [hp₁]; exact p3) (by rw [hp₁]; exact p4) (by rw [hpc]; exact ht.filled) (by
      intro j q hj hne
      obtain ⟨d', hd', hq⟩ := back q (List.mem_append_left _ (List.mem_of_getElem? hj))
      have hn := f2 q (List.mem_of_getElem? hj)
      rw [hq] at hn ⊢
      refine habs d' hd' s ((ht.rest d' hd').2.2.1 ?_ hn)
      intro hc
      apply hne
      have hlj := (List.getElem?_eq_some_iff.mp hj).1
      have hli := (List.getElem?_eq_some_iff.mp hi).1
      have key := List.pairwise_iff_getElem.mp huniq
      have same : q.1.content = p.1.content := by rw [hpc, hq]; exact hc
      rcases Nat.lt_trichotomy j i with h | h | h
      · refine absurd ?_ (key j i (by simpa using hlj) (by simpa using hli) h)
        rw [List.getElem_map, List.getElem_map, (List.getElem?_eq_some_iff.mp hj).2, (List.getElem?_eq_some_iff.mp hi).2, same]
      · exact h
      · refine absurd ?_ (key i j (by simpa using hli) (by simpa using hlj) h)
        rw [List.getElem_map, List.getElem_map, (List.getElem?_eq_some_iff.mp hj).2, (List.getElem?_eq_some_iff.mp hi).2, same]) (by rw [hpc]; exact ht.marked)
  rw [hpc] at k3
  -- the tokens of the normalized text
  have hN : ∀ w ∈ ws, ∃ reN, buildSet wordChar norm order T.splitNormalizedRe = .ok reN ∧ reN.engine (encStr (N w)) = [] := by
    intro w hw
    apply set_quiet wordChar order ho
    intro q hq
    obtain ⟨d', hd', hq'⟩ := back q (List.mem_append_right _ hq)
    have hn := f3 q hq
    rw [hq'] at hn ⊢
    exact habs d' hd' _ ((ht.rest d' hd').2.2.2 hn w hw)
  obtain ⟨w₀, hw₀⟩ := List.exists_mem_of_ne_nil _ (marked_ne ht.marked)
  obtain ⟨reN, q1, _⟩ := hN w₀ hw₀
  refine ⟨T, re, reN, i, p.2, e, k1, q1, k2, k3, ?_, hid, (inv.bound _ _ hid).1, (inv.roundtrip _ _).1 hid, ?_, ?_⟩
  · intro w hw
    obtain ⟨reN', g1, g2⟩ := hN w hw
    rw [q1] at g1
    cases g1
    exact g2
  · intro c i hc
    exact (inv.roundtrip c i).1 ((C71_ids h₀ cfg T e).1 c i hc)
  · obtain ⟨T', e', _, h⟩ := C71_known h₀ cfg
    rw [e] at e'
    cases e'
    exact h

/-- Encoding a text with an added token in it with a tokenizer from a file. -/
theorem file_marked {E : FileEnv} (ho : Permutes E.order)
    (ho' : ∀ l : List PatMatch, SortedById l → l.Pairwise (fun a b => a.start ≤ b.start) → E.order l = l)
    {c : FileConfig} {a : AnyModel} (ha : createModel (c.model.getD []) (c.decoder.getD []) = .ok a)
    (hst : FreshModel (vocabOf (c.model.getD []) a))
    {c₀ s : Str} {ws : List Str} {N : Str → Str} (ht : TokenInText c.addedTokens c₀ s ws N)
    (hf : ∃ x ∈ c.addedTokens, x.content = c₀ ∧ (x.special = true ∨ mget (vocabOf (c.model.getD []) a).vocab c₀ = none))
    (hn : ∀ w ∈ ws, NormSection E c.normalizer w (N w)) {g : Str → List Str} (hp : PreSection E c.preTokenizer g)
    {before after : List (Str × Int)} (hproc : Surrounds c.postProcessor before after)
    {dec : Option DecCfg} (hd : fromSection createDec c.decoder = .ok dec)
    (htr : c.truncation = none) (hpad : c.padding = none) :
    ∃ (b : Built) (id : Int), fromReader E (some c) = .ok b ∧ b.decoder = dec.map (decodeFn E) ∧
      b.state.tokenToId c₀ = some id ∧ b.state.idToToken id = some c₀ ∧
      (∀ c' i, mget (vocabOf (c.model.getD []) a).vocab c' = some i → b.state.idToToken i = some c' ∧ b.state.tokenToId c' = some i) ∧
      (∀ c', b.state.isSpecial c' = true ↔ c' ≠ [] ∧ ∃ d ∈ c.addedTokens, d.special = true ∧ d.content = c') ∧
      (∀ tok : Str → List Token, (∀ w ∈ ws, ∀ v ∈ piecesOf g w (N w), modelFn E a (encStr v) = .ok (some (tok v)) ∧ tok v ≠ [] ∧
          ∀ x ∈ tok v, 0 ≤ x.offsets.1 ∧ x.offsets.1 ≤ x.offsets.2) →
        ∃ e, b.tok.encodeSingle (encStr s) [true] = .ok (some e) ∧
          e.tokens = before.map (·.1) ++ between c₀ (ws.map (fun w => ((piecesOf g w (N w)).flatMap tok).map (·.value))) ++ after.map (·.1) ∧
          e.ids = before.map (·.2) ++ between id (ws.map (fun w => ((piecesOf g w (N w)).flatMap tok).map (·.id))) ++ after.map (·.2)) := by
  obtain ⟨w₀, hw₀⟩ := List.exists_mem_of_ne_nil _ (marked_ne ht.marked)
  obtain ⟨n, en, _⟩ := normSection_part (hn w₀ hw₀)
  obtain ⟨T, re, reN, i, id, k1, k2, k3, k4, k5, k6, k7, k8, k9, k10, k11⟩ := load_marked hst E.wordChar
    (norm := n.map (normalizerOf E)) ho ho' ht hf
  obtain ⟨p, ep, hcut⟩ := preSection_cuts hp
  obtain ⟨pc, p1, p2⟩ := surrounds_post hproc
  refine ⟨_, id, fromReader_ok (tr := none) ha en ep p1 hd k1 k2 k3 (by rw [htr]; rfl), rfl, k7, k9, ?_, k11, ?_⟩
  · intro c' i h
    exact ⟨k10 c' i h, (C71_ids hst _ T k1).1 c' i h⟩
  · intro tok hm
    obtain ⟨rows, g1, g2, g3⟩ := marked_encode (t := ⟨re, reN, n.map (normalizerOf E), p.map (preFn E), some (modelFn E a)⟩)
      ht.filled ht.marked (i := i) (id := id) (by omega) k4 k5 (N := N) (by
        intro w hw
        obtain ⟨n', en', h⟩ := normSection_part (hn w hw)
        obtain rfl : n' = n := by rw [en] at en'; exact (Res.ok.inj en').symm
        exact h _ rfl) k6 (hcut _ rfl) (tok := tok)
      (fun w hw v hv => ⟨_, rfl, (hm w hw v hv).1, (hm w hw v hv).2.1, (hm w hw v hv).2.2⟩) 0 .byte
    obtain ⟨r, l1, l2, l3⟩ := p2 rows
    refine ⟨r, ?_, by rw [l3, g3], by rw [l2, g2]⟩
    rw [hpad]
    simp only [createPadding, Tokenizer.encodeSingle, Tokenizer.encode, Tokenizer.encodeWith, g1, Res.bind_ok, List.headD_cons]
    exact l1

/-! ### C135 -/

/-- C135: in a text with an added token in it, every occurrence of the token becomes one entry with its id and its content,
and the texts around the occurrences are encoded as they are alone. Partial: one token without options that is searched for
in the text as it is, with no other added token in the text. -/
theorem C135_between_partial (t : Tk) (wordChar : Char → Bool) (order : List PatMatch → List PatMatch) (ho : Permutes order)
    (ho' : ∀ l : List PatMatch, SortedById l → l.Pairwise (fun a b => a.start ≤ b.start) → order l = l)
    (before after : List (AddedToken × Int)) (a : AddedToken) (id : Int)
    (hset : buildSet wordChar t.normalizer order (before ++ (a, id) :: after) = .ok t.splitRe) (hid : 0 ≤ id)
    (h1 : a.singleWord = false) (h2 : a.lstrip = false) (h3 : a.rstrip = false) (hc : a.content ≠ [])
    (s : Str) (ws : List Str) (hm : Marked a.content s ws) (hother : ∀ x ∈ before ++ after, Absent t.normalizer s x.1)
    (N : Str → Str) (hn : ∀ w ∈ ws, NormalizesPart t w (N w))
    (hN : ∀ w ∈ ws, t.splitNormalizedRe.engine (encStr (N w)) = []) (g : Str → List Str) (hg : CutsInto t g)
    (tok : Str → List Token) (htok : ∀ w ∈ ws, ∀ v ∈ piecesOf g w (N w), ModelGives t tok v) (typeId : Int) (ot : OffsetType) :
    ∃ (e : Encoding) (f : Str → Encoding), t.encodeSingle (.raw (encStr s)) typeId ot = .ok e ∧
      (∀ w ∈ ws, t.encodeSingle (.raw (encStr w)) typeId ot = .ok (f w)) ∧
      e.ids = between id (ws.map (fun w => (f w).ids)) ∧
      e.tokens = between a.content (ws.map (fun w => (f w).tokens)) := by
  have hother' : ∀ j e, (before ++ (a, id) :: after)[j]? = some e → j ≠ before.length → Absent t.normalizer s e.1 := by
    intro j e hj hne
    apply hother
    rcases Nat.lt_or_ge j before.length with h | h
    · rw [List.getElem?_append_left h] at hj
      exact List.mem_append_left _ (List.mem_of_getElem? hj)
    · rw [List.getElem?_append_right h] at hj
      obtain ⟨k, hk⟩ : ∃ k, j - before.length = k + 1 := ⟨j - before.length - 1, by omega⟩
      rw [hk, List.getElem?_cons_succ] at hj
      exact List.mem_append_right _ (List.mem_of_getElem? hj)
  obtain ⟨re, k1, k2, k3⟩ := set_marked wordChar (norm := t.normalizer) order ho' (es := before ++ (a, id) :: after) (s := s)
    (i := before.length) (a := a) (id := id) (by simp) h1 h2 h3 hc hother' hm
  rw [hset] at k1
  cases k1
  obtain ⟨rows, e1, e2, e3⟩ := marked_encode hc hm (by omega) k2 k3 hn hN hg htok typeId ot
  have alone : ∀ w ∈ ws, ∃ e, t.encodeSingle (.raw (encStr w)) typeId ot = .ok e ∧
      e.ids = ((piecesOf g w (N w)).flatMap tok).map (·.id) ∧ e.tokens = ((piecesOf g w (N w)).flatMap tok).map (·.value) := by
    intro w hw
    obtain ⟨re, q1, q2⟩ := set_quiet wordChar (norm := t.normalizer) order ho (es := before ++ (a, id) :: after) (s := w) (by
      intro x hx
      rcases List.mem_append.mp hx with h | h
      · exact (hother x (by simp [h])).mono (marked_infix hm w hw)
      · rcases List.mem_cons.mp h with rfl | h
        · exact ⟨hc, a.content, hc, marked_free hc hm w hw, fun _ => rfl, fun h => absurd (h1.symm.trans h) (by simp)⟩
        · exact (hother x (by simp [h])).mono (marked_infix hm w hw))
    rw [hset] at q1
    cases q1
    obtain ⟨e, g1, g2, g3, _⟩ := C100_pieces t w (N w) g tok (hn w hw).normalizes q2 (hN w hw) hg (htok w hw) typeId ot
    exact ⟨e, g1, g2, g3⟩
  classical
  refine ⟨_, fun w => if h : w ∈ ws then (alone w h).choose else ofRows [] 0, e1, ?_, ?_, ?_⟩
  · intro w hw
    simp only [hw, dif_pos]
    exact (alone w hw).choose_spec.1
  · rw [e2]
    congr 1
    apply List.map_congr_left
    intro w hw
    simp only [hw, dif_pos]
    exact (alone w hw).choose_spec.2.1.symm
  · rw [e3]
    congr 1
    apply List.map_congr_left
    intro w hw
    simp only [hw, dif_pos]
    exact (alone w hw).choose_spec.2.2.symm


theorem filter_between (p : α → Bool) {a : α} (ha : p a = false) (xs : List (List α)) :
    (between a xs).filter p = (xs.map (List.filter p)).flatten := by
  induction xs with
  | nil => rfl
  | cons x xs ih =>
    cases xs with
    | nil => simp [between]
    | cons y xs =>
      rw [between, List.filter_append, List.filter_cons, ha, if_neg (by simp), ih]
      rfl

theorem mem_between {a x : α} {xs : List (List α)} (h : x ∈ between a xs) : x = a ∨ ∃ l ∈ xs, x ∈ l := by
  induction xs with
  | nil => cases h
  | cons y xs ih =>
    cases xs with
    | nil => exact .inr ⟨y, by simp, h⟩
    | cons z xs =>
      rw [between, List.mem_append, List.mem_cons] at h
      rcases h with h | h | h
      · exact .inr ⟨y, by simp, h⟩
      · exact .inl h
      · rcases ih h with h | ⟨l, hl, h⟩
        · exact .inl h
        · exact .inr ⟨l, List.mem_cons_of_mem _ hl, h⟩

/-- The words that `Decode` keeps: those that no special token has as its content. -/
theorem special_filter {T : VocabState} {cfg : List TokenConfig} (hne : ∀ y ∈ cfg, y.content ≠ [])
    (k : ∀ c', T.isSpecial c' = true ↔ c' ≠ [] ∧ ∃ d ∈ cfg, d.special = true ∧ d.content = c') (l : List Str) :
    l.filter (fun w => !T.isSpecial w) = l.filter (fun w => decide (∀ y ∈ cfg, y.special = true → y.content ≠ w)) := by
  apply List.filter_congr
  intro w _
  cases hq : T.isSpecial w with
  | false =>
    symm
    rw [Bool.not_false, decide_eq_true_eq]
    rintro y hy h1 rfl
    rw [(k _).2 ⟨hne y hy, y, hy, h1, rfl⟩] at hq
    cases hq
  | true =>
    symm
    obtain ⟨_, y, hy, g1, g2⟩ := (k _).1 hq
    rw [Bool.not_true, decide_eq_false_iff_not]
    exact fun h => h y hy g1 g2

/-- C135 (files with a WordLevel model): the added token `c₀` in a text becomes one token with its id, between the words of
the texts around it; `Decode` without special tokens gives the words, and the added token only if it is not special. -/
theorem C135_words_partial (E : FileEnv) (ho : ∀ l, (E.order l).Perm l)
    (ho' : ∀ l : List PatMatch, SortedById l → l.Pairwise (fun a b => a.start ≤ b.start) → E.order l = l)
    (c : FileConfig) (m : List (Str × Val))
    (v : List (Str × Int)) (unk : Option Str) (hm : c.model = some m) (ht : Asks m [] "WordLevel")
    (hv : get m "vocab" = vocabVal v) (hunk : IsOpt m "unk_token" .str unk) (hgood : GoodVocab v)
    (hd : c.decoder = none) (htr : c.truncation = none) (hpad : c.padding = none)
    (c₀ s : Str) (ws : List Str) (N : Str → Str) (hin : TokenInText c.addedTokens c₀ s ws N)
    (hf : ∃ x ∈ c.addedTokens, x.content = c₀ ∧ (x.special = true ∨ mget v c₀ = none))
    (hn : ∀ w ∈ ws, NormSection E c.normalizer w (N w)) (g : Str → List Str) (hp : PreSection E c.preTokenizer g)
    (before after : List (Str × Int)) (hproc : Surrounds c.postProcessor before after)
    (hplaces : ∀ x ∈ before ++ after, x ∈ v ∧ ∃ y ∈ c.addedTokens, y.special = true ∧ y.content = x.1)
    (hk : ∀ w ∈ ws, ∀ y ∈ piecesOf g w (N w), wordId v (unkName unk) y ≠ none) :
    ∃ (b : Built) (id : Int) (e : Encoding), fromReader E (some c) = .ok b ∧ b.state.tokenToId c₀ = some id ∧
      b.tok.encodeSingle (encStr s) [true] = .ok (some e) ∧
      e.tokens = before.map (·.1) ++ between c₀ (ws.map (fun w => piecesOf g w (N w))) ++ after.map (·.1) ∧
      e.ids.map some = before.map (fun p => some p.2) ++
        between (some id) (ws.map (fun w => (piecesOf g w (N w)).map (wordId v (unkName unk)))) ++ after.map (fun p => some p.2) ∧
      b.decode e.ids true = .ok (encStr (joinSpace
        ((between c₀ (ws.map (fun w => (piecesOf g w (N w)).map (shown v (unkName unk))))).filter
          (fun w => decide (∀ y ∈ c.addedTokens, y.special = true → y.content ≠ w))))) := by
  obtain ⟨f, un, m1, m2, m3, m4⟩ := C69_wordLevel m [] v unk ht hv hunk
  have hun : un = unkName unk := by
    unfold unkName
    cases unk with
    | none => exact m4 (.inl rfl)
    | some x =>
      by_cases hx : x = []
      · subst hx; exact m4 (.inr rfl)
      · rw [Option.getD_some, if_neg hx]; exact m3 x rfl hx
  have hvl := vocabList_ok hv
  have hvoc : (vocabOf m (.wordLevel f un)).vocab = v := hvl
  have hst : FreshModel (vocabOf m (.wordLevel f un)) := by
    have := fresh_good hgood
    rw [← hvl] at this
    exact this
  obtain ⟨b, id, b1, b2, b3, b4, b5, b6, b7⟩ := file_marked (E := E) (c := c) ho ho' (a := .wordLevel f un)
    (by rw [hm, hd]; exact m1) (by rw [hm]; exact hst) hin (by rw [hm, Option.getD_some, hvoc]; exact hf) hn hp hproc
    (dec := none) (by rw [hd]; rfl) htr hpad
  rw [hm, Option.getD_some, hvoc] at b5
  have hmod : ∀ w, modelFn E (.wordLevel f un) (encStr w) =
      match wordId v (unkName unk) w with
      | some i => .ok (some [⟨i, w, (0, ((blen w : Nat) : Int))⟩])
      | none => .err := by
    intro w
    simp only [modelFn, wordLevelModel, wordLevelTokenize, decStr_enc, m2, hun, wordId]
    cases mget v w with
    | some i => rfl
    | none => cases mget v (unkName unk) <;> rfl
  obtain ⟨e, h1, h2, h3⟩ := b7 (fun w => [⟨(wordId v (unkName unk) w).getD 0, w, (0, ((blen w : Nat) : Int))⟩]) (by
    intro w hw y hy
    obtain ⟨i, hi⟩ := Option.ne_none_iff_exists'.mp (hk w hw y hy)
    refine ⟨by rw [hmod, hi]; rfl, by simp, ?_⟩
    intro x hx
    rw [List.mem_singleton] at hx
    subst hx
    dsimp only
    omega)
  have hval : ∀ l : List Str, (l.flatMap (fun w => [(⟨(wordId v (unkName unk) w).getD 0, w, (0, ((blen w : Nat) : Int))⟩ : Token)])).map
      (·.value) = l := by
    intro l
    rw [← List.map_eq_flatMap, List.map_map]
    exact List.map_id _
  have hids : ∀ l : List Str, (l.flatMap (fun w => [(⟨(wordId v (unkName unk) w).getD 0, w, (0, ((blen w : Nat) : Int))⟩ : Token)])).map
      (·.id) = l.map (fun w => (wordId v (unkName unk) w).getD 0) := by
    intro l
    rw [← List.map_eq_flatMap, List.map_map]
    rfl
  simp only [hval, hids] at h2 h3
  refine ⟨b, id, e, b1, b3, h1, h2, ?_, ?_⟩
  · rw [h3, List.map_append, List.map_append, List.map_map, List.map_map, map_between, List.map_map]
    refine congrArg (· ++ _) (congrArg (_ ++ ·) (congrArg _ ?_))
    apply List.map_congr_left
    intro w hw
    simp only [Function.comp_apply, List.map_map]
    apply List.map_congr_left
    intro y hy
    obtain ⟨i, hi⟩ := Option.ne_none_iff_exists'.mp (hk w hw y hy)
    simp only [Function.comp_apply, hi, Option.getD_some]
  · have hsp : ∀ x ∈ before ++ after, b.state.idToToken x.2 = some x.1 ∧ b.state.isSpecial x.1 = true := by
      intro x hx
      obtain ⟨g1, y, hy, g2, g3⟩ := hplaces x hx
      exact ⟨(b5 _ _ ((mget_mem hgood.names _ _).2 g1)).1, (b6 _).2 ⟨g3 ▸ (hin.rest y hy).1, y, hy, g2, g3⟩⟩
    have hmid : between id (ws.map (fun w => (piecesOf g w (N w)).map (fun w => (wordId v (unkName unk) w).getD 0))) =
        (between (c₀, id) (ws.map (fun w => (piecesOf g w (N w)).map
          (fun w => (shown v (unkName unk) w, (wordId v (unkName unk) w).getD 0))))).map (·.2) := by
      rw [map_between, List.map_map]
      simp [Function.comp_def]
    simp only [Built.decode, b2, Option.map_none]
    rw [h3, decodeTokens_append, decodeTokens_append, decodeTokens_special before (fun x hx => hsp x (by simp [hx])),
      decodeTokens_special after (fun x hx => hsp x (by simp [hx])), List.nil_append, List.append_nil, hmid, kept_filter,
      joinStr_joinSpace, map_between, List.map_map, special_filter (fun y hy => (hin.rest y hy).1) b6]
    · simp [Function.comp_def]
    · intro q hq
      rcases mem_between hq with rfl | ⟨l, hl, hq⟩
      · exact b4
      · obtain ⟨w, hw, rfl⟩ := List.mem_map.mp hl
        obtain ⟨y, hy, rfl⟩ := List.mem_map.mp hq
        obtain ⟨i, hi⟩ := Option.ne_none_iff_exists'.mp (hk w hw y hy)
        refine (b5 _ _ ?_).1
        simp only [hi, Option.getD_some, shown]
        unfold wordId at hi
        cases hw' : mget v y with
        | some j => rw [hw'] at hi; cases hi; simp [hw']
        | none => rw [hw'] at hi; simpa using hi

/-- The pieces of the words. -/
theorem greedy_words (m : WordPiece) (words : List Str) (hne : ∀ w ∈ words, w ≠ [])
    (hw : ∀ w ∈ words, (w.length : Int) ≤ m.maxChars ∧ ∃ ps, Greedy m true w ps ∧ ∀ q ∈ ps.head?, m.pre.isPrefixOf q.1 = false)
    (tok : Str → List Token) (htok : ∀ w, m.tokenize w = .ok (tok w) ∨ (∀ ts, m.tokenize w ≠ .ok ts)) :
    (∀ w ∈ words, m.tokenize w = .ok (tok w) ∧ tok w ≠ [] ∧ ∀ x ∈ tok w, m.vocab x.value = some x.id ∧
      0 ≤ x.offsets.1 ∧ x.offsets.1 ≤ x.offsets.2) ∧
    ∃ segs : List (List Str), (words.flatMap tok).map (·.value) = (segs.map (wordValues m.pre)).flatten ∧
      words = segs.map List.flatten ∧
      ∀ s ∈ segs, (∃ p ps, s = p :: ps ∧ m.pre.isPrefixOf p = false) ∧ ∀ q ∈ s, q ≠ [] := by
  have hknown : ∀ {first : Bool} {w : Str} {ps : List (Str × Int)} (hg : Greedy m first w ps) (k : Nat),
      ∀ x ∈ piecesToTokens m first k ps, m.vocab x.value = some x.id ∧ 0 ≤ x.offsets.1 ∧ x.offsets.1 ≤ x.offsets.2 := by
    intro first w ps hg
    induction hg with
    | nil => intro k x hx; cases hx
    | cons first p rest id ps hp hid hlong _ ih =>
      intro k x hx
      simp only [piecesToTokens, List.mem_cons] at hx
      rcases hx with rfl | hx
      · refine ⟨hid, ?_⟩
        dsimp only
        omega
      · exact ih _ x hx
  have ht : ∀ w ∈ words, ∃ ps, Greedy m true w ps ∧ m.tokenize w = .ok (tok w) ∧ tok w = piecesToTokens m true 0 ps := by
    intro w h
    obtain ⟨hl, ps, hg, _⟩ := hw w h
    have h2 := C34_greedy m w hl ps hg
    rcases htok w with h3 | h3
    · exact ⟨ps, hg, h3, by rw [h3] at h2; exact Res.ok.inj h2⟩
    · exact absurd h2 (h3 _)
  constructor
  · intro w h
    obtain ⟨ps, hg, h1, h2⟩ := ht w h
    refine ⟨h1, ?_, by rw [h2]; exact hknown hg 0⟩
    rw [h2]
    cases hg with
    | nil => exact absurd rfl (hne [] h)
    | cons => simp [piecesToTokens]
  · rw [List.flatMap_def]
    refine words_pieces m words (words.map tok) hne (fun w h => (hw w h).1) ?_ (fun w h => (hw w h).2)
    rw [List.map_map]
    apply List.map_congr_left
    intro w h
    obtain ⟨_, _, h1, _⟩ := ht w h
    rw [h1]; rfl

/-- C135 (BERT files): a special token `c₀` of a BERT file, like `[MASK]`, becomes one token with its id wherever it is in
a text, between the pieces of the texts around it; `Decode` without special tokens gives the words of these texts. -/
theorem C135_bert_partial (E : FileEnv) (hE : BertEnv E.toEnv)
    (ho' : ∀ l : List PatMatch, SortedById l → l.Pairwise (fun a b => a.start ≤ b.start) → E.order l = l)
    (c : FileConfig) (m p d : List (Str × Val))
    (v : List (Str × Int)) (max cls sep : Int) (hm : c.model = some m) (hs : WordPieceSection m d v max cls sep)
    (hp : c.preTokenizer = some p) (hpre : PreDesc E.cfg p .bert)
    (before after : List (Str × Int)) (hproc : Surrounds c.postProcessor before after)
    (hplaces : ∀ x ∈ before ++ after, x ∈ v ∧ ∃ y ∈ c.addedTokens, y.special = true ∧ y.content = x.1)
    (hd : c.decoder = some d) (cleanup : Bool) (hdec : DecDesc d (.wordPiece "##".toList cleanup))
    (htr : c.truncation = none) (hpad : c.padding = none)
    (c₀ s : Str) (ws : List Str) (N : Str → Str) (hin : TokenInText c.addedTokens c₀ s ws N)
    (hf : ∃ x ∈ c.addedTokens, x.content = c₀ ∧ x.special = true)
    (hadd : ∀ x ∈ c.addedTokens, ∃ a r, x.content = '[' :: a :: r)
    (hn : ∀ w ∈ ws, NormSection E c.normalizer w (N w))
    (hw : ∀ w ∈ ws, ∀ y ∈ piecesOf (bertWords E.punc) w (N w), (y.length : Int) ≤ max ∧
      ∃ ps, Greedy (vocabPieces v max) true y ps) :
    ∃ (b : Built) (id : Int) (r : Encoding) (segs : Str → List (List Str)), fromReader E (some c) = .ok b ∧
      b.state.tokenToId c₀ = some id ∧ b.tok.encodeSingle (encStr s) [true] = .ok (some r) ∧
      (∀ w ∈ ws, piecesOf (bertWords E.punc) w (N w) = (segs w).map List.flatten) ∧
      r.tokens = before.map (·.1) ++ between c₀ (ws.map (fun w => ((segs w).map (wordValues ['#', '#'])).flatten)) ++
        after.map (·.1) ∧
      r.tokens.map b.state.tokenToId = r.ids.map some ∧
      b.decode r.ids true = .ok (encStr (if cleanup then tidy (ws.flatMap (fun w => piecesOf (bertWords E.punc) w (N w)))
        else joinSpace (ws.flatMap (fun w => piecesOf (bertWords E.punc) w (N w))))) := by
  -- the model
  obtain ⟨unk, hunk⟩ := hs.unk
  have hsub : ∃ pre : Option Str, IsOpt m "continuing_subword_prefix" .str pre ∧ ∀ p, pre = some p → p = "##".toList := by
    rcases hs.subword with h | h
    · exact ⟨none, h, by simp⟩
    · exact ⟨some "##".toList, h, fun p h => (Option.some.inj h).symm⟩
  obtain ⟨sub, hsub, hsub'⟩ := hsub
  obtain ⟨wp, m1, m2, m3, m4, m5⟩ := C69_wordPiece_partial m d v unk sub (some max) hs.type hs.vocab hunk hsub hs.length hsub'
  have m4 : wp.pre = ['#', '#'] := by
    rw [m4]
    cases sub with
    | none => rfl
    | some p => exact hsub' p rfl
  have m5 : wp.maxChars = max := m5
  have hvl := vocabList_ok hs.vocab
  have hvoc : (vocabOf m (.wordPiece wp)).vocab = v := hvl
  have hst : FreshModel (vocabOf m (.wordPiece wp)) := by
    have := fresh_good hs.good
    rw [← hvl] at this
    exact this
  obtain ⟨b, id, b1, b2, b3, b4, b5, b6, b7⟩ := file_marked (E := E) (c := c) hE.order ho' (a := .wordPiece wp)
    (by rw [hm, hd]; exact m1) (by rw [hm]; exact hst) hin (by
      obtain ⟨x, hx, h1, h2⟩ := hf
      exact ⟨x, hx, h1, .inl h2⟩) hn (g := bertWords E.punc) (.inr ⟨p, _, hp, hpre, .bert hE.ws⟩) hproc
    (dec := some (.wordPiece "##".toList cleanup)) (by rw [hd]; exact fromSection_some (C70_decoder_partial d _ hdec)) htr hpad
  rw [hm, Option.getD_some, hvoc] at b5
  -- the pieces
  have hws : ∀ w ∈ ws, ∀ x ∈ piecesOf (bertWords E.punc) w (N w), (x.length : Int) ≤ wp.maxChars ∧
      ∃ ps, Greedy wp true x ps ∧ ∀ q ∈ ps.head?, wp.pre.isPrefixOf q.1 = false := by
    intro w hww x h
    obtain ⟨h1, ps, h2⟩ := hw w hww x h
    refine ⟨by rw [m5]; exact h1, ps, greedy_vocab (fun t => by rw [m2]; rfl) (by rw [m4]; rfl) h2, ?_⟩
    intro q hq
    obtain ⟨h3, _⟩ := greedy_flatten h2
    cases ps with
    | nil => cases hq
    | cons p ps =>
      cases hq
      rw [m4]
      cases hpre : ['#', '#'].isPrefixOf q.1 with
      | false => rfl
      | true =>
        obtain ⟨r, hr⟩ := List.isPrefixOf_iff_prefix.mp hpre
        have h4 := piecesOf_mem h
        rw [← h3, List.map_cons, List.flatten_cons, ← hr] at h4
        exact absurd (bertWords_head h4 (hE.punc '#' (by simp))) (by simp)
  let tok : Str → List Token := fun w => match wp.tokenize w with
    | .ok ts => ts
    | _ => []
  have htok : ∀ w, wp.tokenize w = .ok (tok w) ∨ (∀ ts, wp.tokenize w ≠ .ok ts) := by
    intro w
    simp only [tok]
    cases wp.tokenize w with
    | ok ts => exact .inl rfl
    | err => exact .inr nofun
    | panic => exact .inr nofun
  have hgr : ∀ w ∈ ws, _ := fun w hww => greedy_words wp (piecesOf (bertWords E.punc) w (N w))
    (fun x hx => (bertWords_mem (piecesOf_mem hx)).1) (hws w hww) tok htok
  obtain ⟨r, h1, h2, h3⟩ := b7 tok (by
    intro w hww x hx
    obtain ⟨g1, g2, g3⟩ := (hgr w hww).1 x hx
    refine ⟨?_, g2, fun y hy => (g3 y hy).2⟩
    simp only [modelFn, wordPieceModel, decStr_enc, g1, Res.bind_ok])
  have hsegs : ∃ segs : Str → List (List Str), ∀ w ∈ ws,
      ((piecesOf (bertWords E.punc) w (N w)).flatMap tok).map (·.value) = ((segs w).map (wordValues ['#', '#'])).flatten ∧
      piecesOf (bertWords E.punc) w (N w) = (segs w).map List.flatten ∧
      ∀ s ∈ segs w, (∃ p ps, s = p :: ps ∧ ['#', '#'].isPrefixOf p = false) ∧ ∀ q ∈ s, q ≠ [] := by
    classical
    refine ⟨fun w => if h : w ∈ ws then (hgr w h).2.choose else [], fun w hww => ?_⟩
    simp only [hww, dif_pos]
    simpa only [m4] using (hgr w hww).2.choose_spec
  obtain ⟨segs, hsegs⟩ := hsegs
  have hvals : ws.map (fun w => ((piecesOf (bertWords E.punc) w (N w)).flatMap tok).map (·.value)) =
      ws.map (fun w => ((segs w).map (wordValues ['#', '#'])).flatten) :=
    List.map_congr_left (fun w hww => (hsegs w hww).1)
  have hv : ∀ t i, mget v t = some i ↔ (t, i) ∈ v := mget_mem hs.good.names
  have htoks : ∀ w ∈ ws, ∀ x ∈ (piecesOf (bertWords E.punc) w (N w)).flatMap tok, mget v x.value = some x.id := by
    intro w hww x hx
    obtain ⟨y, hy, hx⟩ := List.mem_flatMap.mp hx
    have := (((hgr w hww).1 y hy).2.2 x hx).1
    rw [m2] at this
    exact this
  refine ⟨b, id, r, segs, b1, b3, h1, fun w hww => (hsegs w hww).2.1, by rw [h2, hvals], ?_, ?_⟩
  · have hside : ∀ l : List (Str × Int), (∀ x ∈ l, x ∈ before ++ after) →
        (l.map (·.1)).map b.state.tokenToId = (l.map (·.2)).map some := by
      intro l hl
      rw [List.map_map, List.map_map]
      apply List.map_congr_left
      intro x hx
      exact (b5 _ _ ((hv _ _).2 (hplaces x (hl x hx)).1)).2
    rw [h2, h3]
    simp only [List.map_append]
    rw [hside before (fun x hx => by simp [hx]), hside after (fun x hx => by simp [hx]), map_between, map_between, b3]
    refine congrArg (· ++ _) (congrArg (_ ++ ·) (congrArg _ ?_))
    rw [List.map_map, List.map_map]
    apply List.map_congr_left
    intro w hww
    simp only [Function.comp_apply, List.map_map]
    apply List.map_congr_left
    intro x hx
    exact (b5 _ _ (htoks w hww x hx)).2
  · -- the decoder
    have hsp : ∀ x ∈ before ++ after, b.state.idToToken x.2 = some x.1 ∧ b.state.isSpecial x.1 = true := by
      intro x hx
      obtain ⟨g1, y, hy, g2, g3⟩ := hplaces x hx
      exact ⟨(b5 _ _ ((hv _ _).2 g1)).1, (b6 _).2 ⟨g3 ▸ (hin.rest y hy).1, y, hy, g2, g3⟩⟩
    have hmid : between id (ws.map (fun w => ((piecesOf (bertWords E.punc) w (N w)).flatMap tok).map (·.id))) =
        (between (c₀, id) (ws.map (fun w => ((piecesOf (bertWords E.punc) w (N w)).flatMap tok).map
          (fun x => (x.value, x.id))))).map (·.2) := by
      rw [map_between, List.map_map]
      simp [Function.comp_def]
    have hc₀ : b.state.isSpecial c₀ = true := by
      obtain ⟨x, hx, h1, h2⟩ := hf
      exact (b6 _).2 ⟨hin.filled, x, hx, h2, h1⟩
    have hmem : ∀ w ∈ ws, ∀ g ∈ segs w, g.flatten ∈ bertWords E.punc (N w) := fun w hww g hg =>
      piecesOf_mem (by rw [(hsegs w hww).2.1]; exact List.mem_map_of_mem hg)
    have hnot : ∀ w ∈ ws, ∀ x ∈ ((segs w).map (wordValues ['#', '#'])).flatten, b.state.isSpecial x = false := by
      intro w hww x hx
      cases hq' : b.state.isSpecial x with
      | false => rfl
      | true =>
        exfalso
        obtain ⟨_, y, hy, _, rfl⟩ := (b6 _).1 hq'
        obtain ⟨c', r', e'⟩ := hadd y hy
        rw [e'] at hx
        obtain ⟨g, hg, hx⟩ := List.mem_flatten.mp hx
        obtain ⟨g, hg', rfl⟩ := List.mem_map.mp hg
        obtain ⟨⟨p, ps, rfl, _⟩, _⟩ := (hsegs w hww).2.2 g hg'
        simp only [wordValues, List.mem_cons] at hx
        rcases hx with hx | hx
        · have := hmem w hww _ hg'
          rw [← hx] at this
          exact absurd (bertWords_head this (hE.punc '[' (by simp))) (by simp)
        · obtain ⟨z, _, hz⟩ := List.mem_map.mp hx
          cases hz
    have hkept : b.state.decodeTokens true r.ids = ((ws.flatMap segs).map (wordValues ['#', '#'])).flatten := by
      rw [h3, decodeTokens_append, decodeTokens_append, decodeTokens_special before (fun x hx => hsp x (by simp [hx])),
        decodeTokens_special after (fun x hx => hsp x (by simp [hx])), List.nil_append, List.append_nil, hmid, kept_filter,
        map_between, filter_between _ (by rw [hc₀]; rfl), List.map_map, List.map_map]
      · have : ws.map ((List.filter (fun w => !b.state.isSpecial w) ∘ List.map (fun x : Str × Int => x.1)) ∘ fun w =>
            ((piecesOf (bertWords E.punc) w (N w)).flatMap tok).map (fun x => (x.value, x.id))) =
            ws.map (fun w => ((segs w).map (wordValues ['#', '#'])).flatten) := by
          apply List.map_congr_left
          intro w hww
          simp only [Function.comp_apply, List.map_map]
          rw [← (hsegs w hww).1]
          apply List.filter_eq_self.mpr
          intro x hx
          rw [hnot w hww x (by rw [← (hsegs w hww).1]; exact hx)]
          rfl
        rw [this]
        clear * -
        induction ws with
        | nil => rfl
        | cons w ws ih => rw [List.map_cons, List.flatten_cons, ih, List.flatMap_cons, List.map_append, List.flatten_append]
      · intro q hq
        rcases mem_between hq with rfl | ⟨l, hl, hq⟩
        · exact b4
        · obtain ⟨w, hww, rfl⟩ := List.mem_map.mp hl
          obtain ⟨x, hx, rfl⟩ := List.mem_map.mp hq
          exact (b5 _ _ (htoks w hww x hx)).1
    have hpieces : ws.flatMap (fun w => piecesOf (bertWords E.punc) w (N w)) = (ws.flatMap segs).map List.flatten := by
      rw [List.map_flatMap, List.flatMap_def, List.flatMap_def]
      congr 1
      exact List.map_congr_left (fun w hww => (hsegs w hww).2.1)
    have h4 : ∀ g ∈ ws.flatMap segs, (∃ p ps, g = p :: ps ∧ ['#', '#'].isPrefixOf p = false) ∧ ∀ q ∈ g, q ≠ [] := by
      intro g hg
      obtain ⟨w, hww, hg⟩ := List.mem_flatMap.mp hg
      exact (hsegs w hww).2.2 g hg
    simp only [Built.decode, b2, Option.map_some, hkept]
    refine Eq.trans (wordpiece_decodeFn E cleanup _) ?_
    congr 2
    cases cleanup with
    | true =>
      rw [if_pos rfl, if_pos rfl, hpieces]
      refine tidy_pieces (fun c hc => hE.punc c ?_) (fun g hg => ?_) h4
      · simp only [List.mem_cons, List.not_mem_nil, or_false] at hc ⊢
        rcases hc with h | h | h | h | h <;> simp [h]
      · obtain ⟨w, hww, hg⟩ := List.mem_flatMap.mp hg
        exact ⟨_, hmem w hww g hg⟩
    | false =>
      rw [if_neg (by simp), if_neg (by simp), hpieces]
      exact wordpiece_segs ['#', '#'] _ (fun g hg => (h4 g hg).1)

/-- The marked form of the token itself. -/
theorem marked_self {c : Str} (hc : c ≠ []) : Marked c c [[], []] := by
  have := Marked.cons (c := c) [] [] [[]] (fun _ _ _ => Nat.zero_le _) (.last [] (by
    rintro ⟨a, b, h⟩
    simp only [List.append_eq_nil_iff] at h
    exact hc h.1.2))
  rwa [List.append_nil] at this

/-- With the pre-tokenizer ByteLevel nothing is left of a text that is an added token. -/
theorem byteLevel_lost {t : Tk} {a : Bool} {engine : List UInt8 → List (Nat × Nat)}
    (hp : t.preTokenizer = some (byteLevelPre a engine)) {c : Str} (hc : c ≠ []) {i : Nat} {id : Int} (hid : id ≠ -1)
    (h0 : t.splitRe.ids[i]? = some id) (h1 : t.splitRe.engine (encStr c) = (places c 0 [[], []]).map (fun m => ⟨i, m.1, m.2⟩))
    (h2 : t.splitNormalizedRe.engine [] = []) (typeId : Int) (ot : OffsetType) :
    ∃ rows, t.encodeSingle (.raw (encStr c)) typeId ot = .ok (ofRows rows typeId) ∧ (ofRows rows typeId).ids = [] ∧
      (ofRows rows typeId).tokens = [] := by
  obtain ⟨pt, pt', e1, e2, e3⟩ := marked_ready (t := { t with preTokenizer := none }) hc (marked_self hc) hid h0 h1
    (N := fun _ => []) (fun w hw => .inr (.inr ⟨by simpa using hw, rfl⟩)) (fun _ _ => h2) (g := fun s => [s]) (.inl ⟨rfl, fun _ => rfl⟩)
  have e1 : t.extractAndNormalize (encStr c) = .ok pt := e1
  obtain rfl : pt = pt' := Res.ok.inj e2
  have hk : markedPieces (fun s => [s]) (fun _ => []) c id [[], []] = [(c, some [addedToken id c])] := by
    simp [markedPieces, piecesOf]
  rw [hk] at e3
  have hf : pt.splits.filter (fun x => x.tokens.isNone) = [] := by
    rw [List.filter_eq_nil_iff]
    intro sp hsp
    have := e3.texts
    obtain ⟨sp', hsp'⟩ : ∃ x, pt.splits = [x] := by
      have := congrArg List.length this
      simp only [List.length_map, List.length_singleton] at this
      exact List.length_eq_one_iff.mp this
    rw [hsp'] at hsp this
    rw [List.mem_singleton] at hsp
    subst hsp
    simp only [List.map_cons, List.map_nil, List.cons.injEq, Prod.mk.injEq, and_true] at this
    simp [this.2]
  have e4 : t.doPreTokenize pt = .ok { pt with splits := [] } := by
    simp only [Tk.doPreTokenize, hp]
    rw [(C66_found_tokens_violated a engine pt).1, hf]
    rfl
  obtain ⟨e, k1, k2, k3, rows, rfl⟩ := mixed_encode (ps := []) (tok := fun _ => []) e1 e4 ⟨rfl, by simp, by simp⟩
    (by simp) (by simp) typeId ot
  exact ⟨rows, k1, k2, k3⟩

/-- C135 is violated by files with the pre-tokenizer ByteLevel, whatever the model: a text that is an added token of the
file is encoded as the empty text; the token is lost. -/
theorem C135_byteLevel_violated (E : FileEnv) (ho : ∀ l, (E.order l).Perm l)
    (ho' : ∀ l : List PatMatch, SortedById l → l.Pairwise (fun a b => a.start ≤ b.start) → E.order l = l)
    (c : FileConfig) (a : AnyModel) (ha : createModel (c.model.getD []) (c.decoder.getD []) = .ok a)
    (hst : FreshModel (vocabOf (c.model.getD []) a)) (c₀ : Str)
    (hin : TokenInText c.addedTokens c₀ c₀ [[], []] (fun _ => []))
    (hf : ∃ x ∈ c.addedTokens, x.content = c₀ ∧ x.special = true) (n : Option NormCfg)
    (hn : fromSection (createNorm E.cfg) c.normalizer = .ok n)
    (p : List (Str × Val)) (hp : c.preTokenizer = some p) (pr tr : Bool) (hpre : PreDesc E.cfg p (.byteLevel pr tr))
    (before after : List (Str × Int)) (hproc : Surrounds c.postProcessor before after)
    (dec : Option DecCfg) (hd : fromSection createDec c.decoder = .ok dec)
    (htr : c.truncation = none) (hpad : c.padding = none) :
    ∃ (b : Built) (id : Int) (e : Encoding), fromReader E (some c) = .ok b ∧ b.state.tokenToId c₀ = some id ∧
      b.tok.encodeSingle (encStr c₀) [true] = .ok (some e) ∧
      e.tokens = before.map (·.1) ++ after.map (·.1) ∧ e.ids = before.map (·.2) ++ after.map (·.2) := by
  obtain ⟨x, hx, hx1, hx2⟩ := hf
  obtain ⟨T, re, reN, i, id, k1, k2, k3, k4, k5, k6, k7, k8, _⟩ := load_marked hst E.wordChar
    (norm := n.map (normalizerOf E)) ho ho' hin ⟨x, hx, hx1, .inl hx2⟩
  obtain ⟨pc, p1, p2⟩ := surrounds_post hproc
  have hpf : preFn E (.byteLevel pr tr) = byteLevelPre pr (gpt2Engine E.isL E.isN) := by
    funext pt; rw [preFn]
  have k6 := k6 [] (by simp)
  rw [encStr_nil] at k6
  obtain ⟨rows, g1, g2, g3⟩ := byteLevel_lost
    (t := ⟨re, reN, n.map (normalizerOf E), some (preFn E (.byteLevel pr tr)), some (modelFn E a)⟩) (by rw [hpf]) hin.filled
    (id := id) (by omega) k4 k5 k6 0 .byte
  obtain ⟨r, l1, l2, l3⟩ := p2 rows
  refine ⟨_, id, r, fromReader_ok (pre := some (.byteLevel pr tr)) (tr := none) ha hn
    (by rw [hp]; exact fromSection_some (C70_preTokenizer_partial E.cfg p _ hpre)) p1 hd k1 k2 k3 (by rw [htr]; rfl), k7, ?_,
    by rw [l3, g3, List.append_nil], by rw [l2, g2, List.append_nil]⟩
  rw [hpad]
  simp only [createPadding, Tokenizer.encodeSingle, Tokenizer.encode, Tokenizer.encodeWith, Option.map_some, g1, Res.bind_ok,
    List.headD_cons]
  exact l1

/-! ### Cases -/

/-- The token "[M]" of the example file of C131 in a text. -/
theorem example_in : TokenInText exampleWordFile.addedTokens "[M]".toList "a-[M]b-c[M]".toList
    ["a-".toList, "b-c".toList, []] id where
  filled := by decide
  marked := by
    refine .cons "a-".toList "b-c[M]".toList _ ?_ (.cons "b-c".toList [] _ ?_ (.last [] (by decide)))
    · intro x y h
      rcases x with _ | ⟨x1, _ | ⟨x2, x⟩⟩
      · cases h
      · cases h
      · exact Nat.le_add_left 2 _
    · intro x y h
      rcases x with _ | ⟨x1, _ | ⟨x2, _ | ⟨x3, x⟩⟩⟩
      · cases h
      · cases h
      · cases h
      · exact Nat.le_add_left 3 _
  plain := by
    intro x hx _
    obtain rfl : x = { id := 3, content := ['[', 'M', ']'], special := true } := by simpa [exampleWordFile] using hx
    exact ⟨rfl, rfl, rfl, rfl⟩
  rest := by
    intro x hx
    obtain rfl : x = { id := 3, content := ['[', 'M', ']'], special := true } := by simpa [exampleWordFile] using hx
    exact ⟨by decide, rfl, fun h => absurd rfl h, nofun⟩

example (E : FileEnv) (ho : ∀ l, (E.order l).Perm l)
    (ho' : ∀ l : List PatMatch, SortedById l → l.Pairwise (fun a b => a.start ≤ b.start) → E.order l = l) :
    ∃ b e, fromReader E (some exampleWordFile) = .ok b ∧
      b.tok.encodeSingle (encStr "a-[M]b-c[M]".toList) [true] = .ok (some e) ∧
      e.tokens = [['a'], "[M]".toList, ['b'], ['c'], "[M]".toList] ∧
      b.decode e.ids true = .ok (encStr "a b <unk>".toList) := by
  obtain ⟨b, id, e, h1, _, h2, h3, _, h4⟩ := C135_words_partial E ho ho' exampleWordFile _ exampleWordVocab none rfl
    (.given _ (by rfl)) (by rfl)
    (by unfold IsOpt; rfl) ⟨by decide +kernel, by decide +kernel, by decide +kernel⟩ rfl rfl rfl _ _ _ _ example_in
    ⟨_, List.mem_singleton.2 rfl, rfl, .inl rfl⟩ (fun w _ => .inl ⟨rfl, rfl⟩)
    _ (.inr ⟨_, _, rfl, .delimiter _ '-' (by unfold TypeIs; rfl) (by unfold StrIs; rfl), .delimiter '-'⟩) [] []
    (.inl ⟨rfl, rfl, rfl⟩) (by simp) (by decide +kernel)
  exact ⟨b, e, h1, h2, by rw [h3]; decide +kernel, by rw [h4]; decide +kernel⟩

/-- A BERT file with the special token "[MASK]", which is not in the vocabulary. -/
def exampleMaskFile : FileConfig where
  model := some exampleBertModel
  decoder := some [("type".toList, .str "WordPiece".toList), ("prefix".toList, .str "##".toList), ("cleanup".toList, .bool true)]
  normalizer := none
  preTokenizer := some [("type".toList, .str "BertPreTokenizer".toList)]
  postProcessor := none
  addedTokens := [{ id := 5, content := "[MASK]".toList, special := true }]
  truncation := none
  padding := none

theorem example_mask_in : TokenInText exampleMaskFile.addedTokens "[MASK]".toList "![MASK]!".toList
    ["!".toList, "!".toList] id where
  filled := by decide
  marked := by
    refine .cons "!".toList "!".toList _ ?_ (.last _ (by decide +kernel))
    intro x y h
    rcases x with _ | ⟨x1, x⟩
    · cases h
    · exact Nat.le_add_left 1 _
  plain := by
    intro x hx _
    obtain rfl : x = { id := 5, content := "[MASK]".toList, special := true } := by simpa [exampleMaskFile] using hx
    exact ⟨rfl, rfl, rfl, rfl⟩
  rest := by
    intro x hx
    obtain rfl : x = { id := 5, content := "[MASK]".toList, special := true } := by simpa [exampleMaskFile] using hx
    exact ⟨by decide, rfl, fun h => absurd rfl h, nofun⟩

example (E : FileEnv) (hE : BertEnv E.toEnv)
    (ho' : ∀ l : List PatMatch, SortedById l → l.Pairwise (fun a b => a.start ≤ b.start) → E.order l = l) :
    ∃ b r, fromReader E (some exampleMaskFile) = .ok b ∧
      b.tok.encodeSingle (encStr "![MASK]!".toList) [true] = .ok (some r) := by
  obtain ⟨b, id, r, segs, h1, _, h2, _⟩ := C135_bert_partial E hE ho' exampleMaskFile _
    [("type".toList, .str "BertPreTokenizer".toList)]
    [("type".toList, .str "WordPiece".toList), ("prefix".toList, .str "##".toList), ("cleanup".toList, .bool true)]
    exampleBertVocab 100 0 1 rfl (exampleBert_section _) rfl (.bert _ (by unfold TypeIs; rfl)) [] [] (.inl ⟨rfl, rfl, rfl⟩) (by simp)
    rfl true (.wordPiece _ _ _ (by unfold TypeIs; rfl) (by unfold StrIs; rfl) (by rfl)) rfl rfl _ _ _ _ example_mask_in
    ⟨_, List.mem_singleton.2 rfl, rfl, rfl⟩ (by
      intro x hx
      obtain rfl : x = { id := 5, content := "[MASK]".toList, special := true } := by simpa [exampleMaskFile] using hx
      exact ⟨_, _, rfl⟩) (fun w _ => .inl ⟨rfl, rfl⟩) (by
      intro w hw y hy
      have hw : w = ['!'] := by simpa using hw
      subst hw
      have : y = ['!'] := by
        have h : piecesOf (bertWords E.punc) ['!'] (id ['!']) = [['!']] := by
          simp [piecesOf, bertWords, Norm.runs, isS]
        rw [h] at hy
        simpa using hy
      subst this
      refine ⟨by decide, [(['!'], 4)], .cons true ['!'] [] 4 _ (by simp) rfl ?_ (.nil _)⟩
      intro p r h hl
      have h2 := congrArg List.length h
      simp only [List.length_append, List.length_cons, List.length_nil] at h2 hl
      omega)
  exact ⟨b, r, h1, h2⟩

end Tok.Whole
