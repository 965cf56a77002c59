import Verif.Whole.PropsSeveral
import Verif.Vocab.Ordered

/-!
# C137: several added tokens of a file in one text
-/

namespace Tok.Whole

open Tok.PreTok Tok.Added Tok.Config Tok.Regex
open Tok.Norm (NStr WF)

/-! ### Specification -/

/-- The text `w`, then every added token with the text that follows it. -/
def withTokens (w : Str) (rs : List (Str × Str)) : Str := w ++ rs.flatMap (fun r => r.1 ++ r.2)

/-- The same for lists: what `f` gives for the texts, and what `m` gives for the added tokens. -/
def interleave (f : Str → List α) (m : Str → α) (w : Str) (rs : List (Str × Str)) : List α :=
  f w ++ rs.flatMap (fun r => m r.1 :: f r.2)

/-- The added tokens of the file are in the text where `w` and `rs` say and nowhere else, the special ones first, then the
others, those of one kind in the order of the file. They have no options and, if they are not special, the model (with
vocabulary `v`) does not know them. None of those that are searched for in the normalized text is in what `N` gives for the
texts between. -/
structure TokensInText (l : List TokenConfig) (v : List (Str × Int)) (w : Str) (rs : List (Str × Str)) (N : Str → Str) : Prop where
  apart : (l.map (·.content)).Nodup
  plain : ∀ x ∈ l, x.content ≠ [] ∧ x.singleWord = false
  found : ∀ r ∈ rs, ∃ x ∈ l, x.content = r.1 ∧ x.normalized = false ∧ x.lstrip = false ∧ x.rstrip = false ∧
    (x.special = true ∨ mget v x.content = none)
  only : ∀ x ∈ l, x.normalized = false → ∀ a b, withTokens w rs = a ++ x.content ++ b →
    ∃ r1 r r2, rs = r1 ++ r :: r2 ∧ r.1 = x.content ∧ a = withTokens w r1
  order : ∃ n : Str → Nat, rs.map (·.1) =
    (l.filter (·.special) ++ l.filter (fun x => !x.special)).flatMap (fun x => List.replicate (n x.content) x.content)
  rest : ∀ x ∈ l, x.normalized = true → ∀ u ∈ w :: rs.map (·.2), ¬ x.content <:+: N u

/-! ### Lemmas -/

theorem map_interleave (h : α → β) (f : Str → List α) (m : Str → α) (w : Str) (rs : List (Str × Str)) :
    (interleave f m w rs).map h = interleave (fun u => (f u).map h) (fun c => h (m c)) w rs := by
  simp [interleave, List.map_flatMap]

theorem interleave_congr {f g : Str → List α} {m n : Str → α} {w : Str} {rs : List (Str × Str)}
    (h1 : ∀ u ∈ w :: rs.map (·.2), f u = g u) (h2 : ∀ r ∈ rs, m r.1 = n r.1) : interleave f m w rs = interleave g n w rs := by
  unfold interleave
  rw [h1 w (by simp)]
  refine congrArg (_ ++ ·) ?_
  rw [List.flatMap_def, List.flatMap_def]
  congr 1
  apply List.map_congr_left
  intro r hr
  rw [h1 r.2 (List.mem_cons_of_mem _ (List.mem_map.mpr ⟨r, hr, rfl⟩)), h2 r hr]

theorem mem_interleave {f : Str → List α} {m : Str → α} {w : Str} {rs : List (Str × Str)} {x : α} (h : x ∈ interleave f m w rs) :
    (∃ u ∈ w :: rs.map (·.2), x ∈ f u) ∨ ∃ r ∈ rs, x = m r.1 := by
  rcases List.mem_append.mp h with h | h
  · exact .inl ⟨w, by simp, h⟩
  · obtain ⟨r, hr, h⟩ := List.mem_flatMap.mp h
    rcases List.mem_cons.mp h with h | h
    · exact .inr ⟨r, hr, h⟩
    · exact .inl ⟨r.2, List.mem_cons_of_mem _ (List.mem_map.mpr ⟨r, hr, rfl⟩), h⟩

theorem filter_interleave (p : α → Bool) {f : Str → List α} {m : Str → α} {w : Str} {rs : List (Str × Str)}
    (h1 : ∀ r ∈ rs, p (m r.1) = false) :
    (interleave f m w rs).filter p = (w :: rs.map (·.2)).flatMap (fun u => (f u).filter p) := by
  rw [interleave, List.filter_append, List.flatMap_cons]
  refine congrArg ((f w).filter p ++ ·) ?_
  induction rs with
  | nil => rfl
  | cons r rs ih =>
    rw [List.flatMap_cons, List.cons_append, List.filter_cons, h1 r (by simp), if_neg (by simp), List.filter_append,
      ih (fun x hx => h1 x (by simp [hx])), List.map_cons, List.flatMap_cons]

theorem flatMap_filter_nil {p : α → Bool} {f : α → List β} (l : List α) (h : ∀ x ∈ l, p x = false → f x = []) :
    (l.filter p).flatMap f = l.flatMap f := by
  induction l with
  | nil => rfl
  | cons x l ih =>
    rw [List.filter_cons, List.flatMap_cons]
    cases hp : p x with
    | true => rw [if_pos rfl, List.flatMap_cons, ih (fun y hy => h y (by simp [hy]))]
    | false => rw [if_neg (by simp), h x (by simp) hp, List.nil_append, ih (fun y hy => h y (by simp [hy]))]

/-- The added tokens with their ids. -/
def marksOf (id : Str → Int) (rs : List (Str × Str)) : List Mark := rs.map (fun r => ((r.1, id r.1), r.2))

theorem spelled_marksOf (id : Str → Int) (w : Str) (rs : List (Str × Str)) : spelled w (marksOf id rs) = withTokens w rs := by
  simp [spelled, marksOf, withTokens, List.flatMap_map]

theorem same_of_content {l : List TokenConfig} (h : (l.map (·.content)).Nodup) {x y : TokenConfig} (hx : x ∈ l) (hy : y ∈ l)
    (e : x.content = y.content) : x = y := by
  obtain ⟨i, hi, rfl⟩ := List.mem_iff_getElem.mp hx
  obtain ⟨j, hj, rfl⟩ := List.mem_iff_getElem.mp hy
  have key := List.pairwise_iff_getElem.mp h
  rcases Nat.lt_trichotomy i j with h | h | h
  · exact (key i j (by simpa using hi) (by simpa using hj) h (by simpa using e)).elim
  · subst h; rfl
  · exact (key j i (by simpa using hj) (by simpa using hi) h (by simpa using e.symm)).elim

/-- Loading the added tokens of a file, if several of them are in the text. -/
theorem load_several {T₀ : VocabState} (h₀ : FreshModel T₀) {cfg : List TokenConfig} (wordChar : Char → Bool)
    {norm : Option (NStr → Res NStr)} {order : List PatMatch → List PatMatch} (ho : Permutes order)
    (ho' : ∀ l : List PatMatch, SortedById l → l.Pairwise (fun a b => a.start ≤ b.start) → order l = l)
    {w : Str} {rs : List (Str × Str)} {N : Str → Str} (ht : TokensInText cfg T₀.vocab w rs N) :
    ∃ T re reN, ∃ id : Str → Int, loadAdded T₀ cfg = .ok T ∧ buildSet wordChar norm order T.splitRe = .ok re ∧
      buildSet wordChar norm order T.splitNormalizedRe = .ok reN ∧
      Hits re.ids 0 w (marksOf id rs) (re.engine (encStr (withTokens w rs))) ∧
      (∀ u ∈ w :: rs.map (·.2), reN.engine (encStr (N u)) = []) ∧
      (∀ r ∈ rs, T.tokenToId r.1 = some (id r.1) ∧ 0 ≤ id r.1 ∧ T.idToToken (id r.1) = some r.1) ∧
      (∀ c i, mget T₀.vocab c = some i → T.idToToken i = some c) ∧
      (∀ c, T.isSpecial c = true ↔ c ≠ [] ∧ ∃ d ∈ cfg, d.special = true ∧ d.content = c) := by
  obtain ⟨T₁, T, e, r1, r2, _⟩ := load_steps h₀ cfg
  obtain ⟨f1, f2, f3, f4⟩ := C71_flags h₀ cfg T e
  have inv := (r2.full (r1.full h₀.full)).inv
  have back : ∀ p ∈ T.splitRe ++ T.splitNormalizedRe, (∃ d ∈ cfg, p.1 = d.token) ∧ T.tokenToId p.1.content = some p.2 := by
    intro p hp
    obtain ⟨d, hd, g1, g2, g3, g4, g5, g6⟩ := f1 p hp
    refine ⟨⟨d, hd, ?_⟩, by rw [g1]; exact g6⟩
    obtain ⟨⟨_, _, _, _, _⟩, _⟩ := p
    simp only [TokenConfig.token] at *
    simp [g1, g2, g3, g4, g5]
  let id : Str → Int := fun c => (T.tokenToId c).getD 0
  have hid : ∀ r ∈ rs, T.tokenToId r.1 = some (id r.1) := by
    intro r hr
    obtain ⟨x, hx, h1, _, _, _, h2⟩ := ht.found r hr
    obtain ⟨p, hp, hpc⟩ := f4 x hx (ht.plain x hx).1 h2
    have := (back p hp).2
    rw [hpc, h1] at this
    simp only [id, this, Option.getD_some]
  have hord := load_order h₀ cfg ht.apart (fun d hd => (ht.plain d hd).1) T e
  have hin : InOrder T.splitRe w (marksOf id rs) := by
    refine ⟨?_, load_unique h₀ cfg T e, ?_, ?_⟩
    · intro p hp
      obtain ⟨⟨d, hd, hpd⟩, _⟩ := back p (by simp [hp])
      have hn := f2 p hp
      rw [hpd] at hn ⊢
      refine ⟨(ht.plain d hd).1, (ht.plain d hd).2, ?_⟩
      rintro ⟨a, b, hab⟩
      rw [spelled_marksOf] at hab
      obtain ⟨q1, r, q2, rfl, h2, _⟩ := ht.only d hd hn a b hab.symm
      obtain ⟨x, hx, h3, _, h4, h5, _⟩ := ht.found r (by simp)
      rw [same_of_content ht.apart hd hx (h2.symm.trans h3.symm)]
      exact ⟨h4, h5⟩
    · intro p hp a b hab
      obtain ⟨⟨d, hd, hpd⟩, _⟩ := back p (by simp [hp])
      have hn := f2 p hp
      rw [hpd] at hn hab ⊢
      rw [spelled_marksOf] at hab
      obtain ⟨q1, r, q2, rfl, h2, h3⟩ := ht.only d hd hn a b hab
      exact ⟨marksOf id q1, ((r.1, id r.1), r.2), marksOf id q2, by simp [marksOf], h2, by rw [spelled_marksOf]; exact h3⟩
    · obtain ⟨n, hn⟩ := ht.order
      refine ⟨n, ?_⟩
      have e1 : (marksOf id rs).map (·.1) = (rs.map (·.1)).map (fun c => (c, id c)) := by simp [marksOf]
      have e2 : T.splitRe.flatMap (fun e => List.replicate (n e.1.content) (e.1.content, e.2)) =
          (T.splitRe.map (·.1)).flatMap (fun t => List.replicate (n t.content) (t.content, id t.content)) := by
        rw [List.flatMap_map, List.flatMap_def, List.flatMap_def]
        congr 1
        apply List.map_congr_left
        intro p hp
        simp only [id, (back p (by simp [hp])).2, Option.getD_some]
      have hzero : ∀ d ∈ cfg, (d.normalized = true ∨ (d.special = false ∧ (mget T₀.vocab d.content).isSome)) → n d.content = 0 := by
        intro d hd h
        apply Nat.eq_zero_of_not_pos
        intro hpos
        have : d.content ∈ rs.map (·.1) := by
          rw [hn]
          refine List.mem_flatMap.mpr ⟨d, ?_, List.mem_replicate.mpr ⟨by omega, rfl⟩⟩
          cases hs : d.special <;> simp [hd, hs]
        obtain ⟨r, hr, he⟩ := List.mem_map.mp this
        obtain ⟨x, hx, h1, h2, _, _, h3⟩ := ht.found r hr
        obtain rfl := same_of_content ht.apart hd hx (he.symm.trans h1.symm)
        rcases h with h | ⟨h, h'⟩
        · rw [h2] at h; cases h
        · rcases h3 with h3 | h3
          · rw [h] at h3; cases h3
          · rw [h3] at h'; cases h'
      rw [e1, e2, hn, hord, List.map_flatMap, flatMap_filter_nil, List.flatMap_map, List.flatMap_append, List.flatMap_append]
      · refine congr (congrArg _ ?_) ?_
        · simp [TokenConfig.token]
        · have : cfg.filter (fun d => !d.special && (mget T₀.vocab d.content).isNone) =
              (cfg.filter (fun d => !d.special)).filter (fun d => (mget T₀.vocab d.content).isNone) := by
            rw [List.filter_filter]
            apply List.filter_congr
            intro d _
            exact Bool.and_comm ..
          rw [this, flatMap_filter_nil (p := fun d : TokenConfig => (mget T₀.vocab d.content).isNone)]
          · rw [List.flatMap_def, List.flatMap_def]
            congr 1
            apply List.map_congr_left
            intro d _
            exact List.map_replicate ..
          · intro d hd h
            obtain ⟨h1, h2⟩ := List.mem_filter.mp hd
            have : n d.token.content = 0 := hzero d h1 (.inr ⟨by simpa using h2, by
              cases hq : mget T₀.vocab d.content with
              | none => rw [hq] at h; cases h
              | some i => rfl⟩)
            rw [this]; rfl
      · intro t htm h
        obtain ⟨d, hd, rfl⟩ := List.mem_map.mp htm
        have hd' : d ∈ cfg := by
          rcases List.mem_append.mp hd with h | h <;> exact (List.mem_filter.mp h).1
        have : n d.token.content = 0 := hzero d hd' (.inl (by simpa [TokenConfig.token] using h))
        rw [this]; rfl
  obtain ⟨re, k1, k2⟩ := set_several wordChar (norm := norm) order ho' hin
  rw [spelled_marksOf] at k2
  have hN : ∀ u ∈ w :: rs.map (·.2), ∃ reN, buildSet wordChar norm order T.splitNormalizedRe = .ok reN ∧ reN.engine (encStr (N u)) = [] := by
    intro u hu
    apply set_quiet wordChar order ho
    intro q hq
    obtain ⟨⟨d, hd, hq'⟩, _⟩ := back q (List.mem_append_right _ hq)
    have hn := f3 q hq
    rw [hq'] at hn ⊢
    exact ⟨(ht.plain d hd).1, _, (ht.plain d hd).1, ht.rest d hd hn u hu, fun _ => rfl,
      fun h => absurd ((ht.plain d hd).2.symm.trans h) (by simp)⟩
  obtain ⟨reN, q1, _⟩ := hN w (by simp)
  refine ⟨T, re, reN, id, e, k1, q1, k2, ?_, ?_, ?_, ?_⟩
  · intro u hu
    obtain ⟨reN', g1, g2⟩ := hN u hu
    rw [q1] at g1
    cases g1
    exact g2
  · intro r hr
    exact ⟨hid r hr, (inv.bound _ _ (hid r hr)).1, (inv.roundtrip _ _).1 (hid r hr)⟩
  · intro c i hc
    exact (inv.roundtrip c i).1 ((C71_ids h₀ cfg T e).1 c i hc)
  · obtain ⟨T', e', _, h⟩ := C71_known h₀ cfg
    rw [e] at e'
    cases e'
    exact h

/-- Encoding a text with added tokens in it with a tokenizer from a file. -/
theorem file_several {E : FileEnv} (ho : Permutes E.order)
    (ho' : ∀ l : List PatMatch, SortedById l → l.Pairwise (fun a b => a.start ≤ b.start) → E.order l = l)
    {c : FileConfig} {a : AnyModel} (ha : createModel (c.model.getD []) (c.decoder.getD []) = .ok a)
    (hst : FreshModel (vocabOf (c.model.getD []) a))
    {w : Str} {rs : List (Str × Str)} {N : Str → Str}
    (ht : TokensInText c.addedTokens (vocabOf (c.model.getD []) a).vocab w rs N)
    (hn : ∀ u ∈ w :: rs.map (·.2), NormSection E c.normalizer u (N u)) {g : Str → List Str} (hp : PreSection E c.preTokenizer g)
    {before after : List (Str × Int)} (hproc : Surrounds c.postProcessor before after)
    {dec : Option DecCfg} (hd : fromSection createDec c.decoder = .ok dec)
    (htr : c.truncation = none) (hpad : c.padding = none) :
    ∃ (b : Built) (id : Str → Int), fromReader E (some c) = .ok b ∧ b.decoder = dec.map (decodeFn E) ∧
      (∀ r ∈ rs, b.state.tokenToId r.1 = some (id r.1) ∧ b.state.idToToken (id r.1) = some r.1) ∧
      (∀ c' i, mget (vocabOf (c.model.getD []) a).vocab c' = some i → b.state.idToToken i = some c' ∧ b.state.tokenToId c' = some i) ∧
      (∀ c', b.state.isSpecial c' = true ↔ c' ≠ [] ∧ ∃ d ∈ c.addedTokens, d.special = true ∧ d.content = c') ∧
      (∀ tok : Str → List Token, (∀ u ∈ w :: rs.map (·.2), ∀ v ∈ piecesOf g u (N u), modelFn E a (encStr v) = .ok (some (tok v)) ∧
          tok v ≠ [] ∧ ∀ x ∈ tok v, 0 ≤ x.offsets.1 ∧ x.offsets.1 ≤ x.offsets.2) →
        ∃ e, b.tok.encodeSingle (encStr (withTokens w rs)) [true] = .ok (some e) ∧
          e.tokens = before.map (·.1) ++ interleave (fun u => ((piecesOf g u (N u)).flatMap tok).map (·.value)) (fun c => c) w rs ++
            after.map (·.1) ∧
          e.ids = before.map (·.2) ++ interleave (fun u => ((piecesOf g u (N u)).flatMap tok).map (·.id)) id w rs ++
            after.map (·.2)) := by
  obtain ⟨n, en, _⟩ := normSection_part (hn w (by simp))
  obtain ⟨T, re, reN, id, k1, k2, k3, k4, k6, k7, k10, k11⟩ := load_several hst E.wordChar
    (norm := n.map (normalizerOf E)) ho ho' ht
  obtain ⟨p, ep, hcut⟩ := preSection_cuts hp
  obtain ⟨pc, p1, p2⟩ := surrounds_post hproc
  refine ⟨_, id, fromReader_ok (tr := none) ha en ep p1 hd k1 k2 k3 (by rw [htr]; rfl), rfl,
    fun r hr => ⟨(k7 r hr).1, (k7 r hr).2.2⟩, ?_, k11, ?_⟩
  · intro c' i h
    exact ⟨k10 c' i h, (C71_ids hst _ T k1).1 c' i h⟩
  · intro tok hm
    have hmap : (marksOf id rs).map (·.2) = rs.map (·.2) := by simp [marksOf]
    obtain ⟨rows, g1, g2, g3⟩ := several_encode (t := ⟨re, reN, n.map (normalizerOf E), p.map (preFn E), some (modelFn E a)⟩)
      (w := w) (rs := marksOf id rs) (by
        intro r' hr'
        obtain ⟨r, hr, rfl⟩ := List.mem_map.mp hr'
        obtain ⟨x, hx, h1, _⟩ := ht.found r hr
        have := (k7 r hr).2.1
        exact ⟨h1 ▸ (ht.plain x hx).1, by dsimp only; omega⟩)
      (ms := re.engine (encStr (withTokens w rs))) (by rw [spelled_marksOf]; exact select_hits _ 0 w _ k4) k4 (N := N) (by
        rw [hmap]
        intro u hu
        obtain ⟨n', en', h⟩ := normSection_part (hn u hu)
        obtain rfl : n' = n := by rw [en] at en'; exact (Res.ok.inj en').symm
        exact h _ rfl) (by rw [hmap]; exact k6) (hcut _ rfl) (tok := tok)
      (by rw [hmap]; exact fun u hu v hv => ⟨_, rfl, (hm u hu v hv).1, (hm u hu v hv).2.1, (hm u hu v hv).2.2⟩) 0 .byte
    rw [spelled_marksOf] at g1
    obtain ⟨r, l1, l2, l3⟩ := p2 rows
    refine ⟨r, ?_, ?_, ?_⟩
    · rw [hpad]
      simp only [createPadding, Tokenizer.encodeSingle, Tokenizer.encode, Tokenizer.encodeWith, g1, Res.bind_ok, List.headD_cons]
      exact l1
    · rw [l3, g3]; simp [interleave, marksOf, List.flatMap_map]
    · rw [l2, g2]; simp [interleave, marksOf, List.flatMap_map]

/-! ### C137 -/

/-- C137 (files with a WordLevel model): the added tokens in a text become one token each, with their ids, between the words
of the texts around them; `Decode` without special tokens gives the words and the added tokens that are not special. -/
theorem C137_words_partial (E : FileEnv) (ho : ∀ l, (E.order l).Perm l)
    (ho' : ∀ l : List PatMatch, SortedById l → l.Pairwise (fun a b => a.start ≤ b.start) → E.order l = l)
    (c : FileConfig) (m : List (Str × Val))
    (v : List (Str × Int)) (unk : Option Str) (hm : c.model = some m) (ht : Asks m [] "WordLevel")
    (hv : get m "vocab" = vocabVal v) (hunk : IsOpt m "unk_token" .str unk) (hgood : GoodVocab v)
    (hd : c.decoder = none) (htr : c.truncation = none) (hpad : c.padding = none)
    (w : Str) (rs : List (Str × Str)) (N : Str → Str) (hin : TokensInText c.addedTokens v w rs N)
    (hn : ∀ u ∈ w :: rs.map (·.2), NormSection E c.normalizer u (N u)) (g : Str → List Str) (hp : PreSection E c.preTokenizer g)
    (before after : List (Str × Int)) (hproc : Surrounds c.postProcessor before after)
    (hplaces : ∀ x ∈ before ++ after, x ∈ v ∧ ∃ y ∈ c.addedTokens, y.special = true ∧ y.content = x.1)
    (hk : ∀ u ∈ w :: rs.map (·.2), ∀ y ∈ piecesOf g u (N u), wordId v (unkName unk) y ≠ none) :
    ∃ (b : Built) (e : Encoding), fromReader E (some c) = .ok b ∧ (∀ r ∈ rs, b.state.tokenToId r.1 ≠ none) ∧
      b.tok.encodeSingle (encStr (withTokens w rs)) [true] = .ok (some e) ∧
      e.tokens = before.map (·.1) ++ interleave (fun u => piecesOf g u (N u)) (fun c => c) w rs ++ after.map (·.1) ∧
      e.ids.map some = before.map (fun p => some p.2) ++
        interleave (fun u => (piecesOf g u (N u)).map (wordId v (unkName unk))) b.state.tokenToId w rs ++ after.map (fun p => some p.2) ∧
      b.decode e.ids true = .ok (encStr (joinSpace
        ((interleave (fun u => (piecesOf g u (N u)).map (shown v (unkName unk))) (fun c => c) w rs).filter
          (fun w => decide (∀ y ∈ c.addedTokens, y.special = true → y.content ≠ w))))) := by
  obtain ⟨f, un, m1, m2, m3, m4⟩ := C69_wordLevel m [] v unk ht hv hunk
  have hun : un = unkName unk := by
    unfold unkName
    cases unk with
    | none => exact m4 (.inl rfl)
    | some x =>
      by_cases hx : x = []
      · subst hx; exact m4 (.inr rfl)
      · rw [Option.getD_some, if_neg hx]; exact m3 x rfl hx
  have hvl := vocabList_ok hv
  have hvoc : (vocabOf m (.wordLevel f un)).vocab = v := hvl
  have hst : FreshModel (vocabOf m (.wordLevel f un)) := by
    have := fresh_good hgood
    rw [← hvl] at this
    exact this
  obtain ⟨b, id, b1, b2, b3, b5, b6, b7⟩ := file_several (E := E) (c := c) ho ho' (a := .wordLevel f un)
    (by rw [hm, hd]; exact m1) (by rw [hm]; exact hst) (by rw [hm, Option.getD_some, hvoc]; exact hin) hn hp hproc
    (dec := none) (by rw [hd]; rfl) htr hpad
  rw [hm, Option.getD_some, hvoc] at b5
  have hmod : ∀ w, modelFn E (.wordLevel f un) (encStr w) =
      match wordId v (unkName unk) w with
      | some i => .ok (some [⟨i, w, (0, ((blen w : Nat) : Int))⟩])
      | none => .err := by
    intro w
    simp only [modelFn, wordLevelModel, wordLevelTokenize, decStr_enc, m2, hun, wordId]
    cases mget v w with
    | some i => rfl
    | none => cases mget v (unkName unk) <;> rfl
  obtain ⟨e, h1, h2, h3⟩ := b7 (fun w => [⟨(wordId v (unkName unk) w).getD 0, w, (0, ((blen w : Nat) : Int))⟩]) (by
    intro w hw y hy
    obtain ⟨i, hi⟩ := Option.ne_none_iff_exists'.mp (hk w hw y hy)
    refine ⟨by rw [hmod, hi]; rfl, by simp, ?_⟩
    intro x hx
    rw [List.mem_singleton] at hx
    subst hx
    dsimp only
    omega)
  have hval : ∀ l : List Str, (l.flatMap (fun w => [(⟨(wordId v (unkName unk) w).getD 0, w, (0, ((blen w : Nat) : Int))⟩ : Token)])).map
      (·.value) = l := by
    intro l
    rw [← List.map_eq_flatMap, List.map_map]
    exact List.map_id _
  have hids : ∀ l : List Str, (l.flatMap (fun w => [(⟨(wordId v (unkName unk) w).getD 0, w, (0, ((blen w : Nat) : Int))⟩ : Token)])).map
      (·.id) = l.map (fun w => (wordId v (unkName unk) w).getD 0) := by
    intro l
    rw [← List.map_eq_flatMap, List.map_map]
    rfl
  simp only [hval, hids] at h2 h3
  refine ⟨b, e, b1, fun r hr => by rw [(b3 r hr).1]; simp, h1, h2, ?_, ?_⟩
  · rw [h3, List.map_append, List.map_append, List.map_map, List.map_map, map_interleave]
    refine congrArg (· ++ _) (congrArg (_ ++ ·) (interleave_congr ?_ ?_))
    · intro u hu
      rw [List.map_map]
      apply List.map_congr_left
      intro y hy
      obtain ⟨i, hi⟩ := Option.ne_none_iff_exists'.mp (hk u hu y hy)
      simp only [Function.comp_apply, hi, Option.getD_some]
    · intro r hr
      exact (b3 r hr).1.symm
  · have hsp : ∀ x ∈ before ++ after, b.state.idToToken x.2 = some x.1 ∧ b.state.isSpecial x.1 = true := by
      intro x hx
      obtain ⟨g1, y, hy, g2, g3⟩ := hplaces x hx
      exact ⟨(b5 _ _ ((mget_mem hgood.names _ _).2 g1)).1, (b6 _).2 ⟨g3 ▸ (hin.plain y hy).1, y, hy, g2, g3⟩⟩
    have hmid : interleave (fun u => (piecesOf g u (N u)).map (fun w => (wordId v (unkName unk) w).getD 0)) id w rs =
        (interleave (fun u => (piecesOf g u (N u)).map
          (fun w => (shown v (unkName unk) w, (wordId v (unkName unk) w).getD 0))) (fun c => (c, id c)) w rs).map (·.2) := by
      rw [map_interleave]
      simp [Function.comp_def]
    simp only [Built.decode, b2, Option.map_none]
    rw [h3, decodeTokens_append, decodeTokens_append, decodeTokens_special before (fun x hx => hsp x (by simp [hx])),
      decodeTokens_special after (fun x hx => hsp x (by simp [hx])), List.nil_append, List.append_nil, hmid, kept_filter,
      joinStr_joinSpace, map_interleave, special_filter (fun y hy => (hin.plain y hy).1) b6]
    · simp [Function.comp_def]
    · intro q hq
      rcases mem_interleave hq with ⟨u, hu, hq⟩ | ⟨r, hr, rfl⟩
      · obtain ⟨y, hy, rfl⟩ := List.mem_map.mp hq
        obtain ⟨i, hi⟩ := Option.ne_none_iff_exists'.mp (hk u hu y hy)
        refine (b5 _ _ ?_).1
        simp only [hi, Option.getD_some, shown]
        unfold wordId at hi
        cases hw' : mget v y with
        | some j => rw [hw'] at hi; cases hi; simp [hw']
        | none => rw [hw'] at hi; simpa using hi
      · exact (b3 r hr).2

/-- C137 (BERT files): the special tokens of a BERT file, like `[MASK]` and `[SEP]`, become one token each, with their ids,
between the pieces of the texts around them; `Decode` without special tokens gives the words of these texts. -/
theorem C137_bert_partial (E : FileEnv) (hE : BertEnv E.toEnv)
    (ho' : ∀ l : List PatMatch, SortedById l → l.Pairwise (fun a b => a.start ≤ b.start) → E.order l = l)
    (c : FileConfig) (m p d : List (Str × Val))
    (v : List (Str × Int)) (max cls sep : Int) (hm : c.model = some m) (hs : WordPieceSection m d v max cls sep)
    (hp : c.preTokenizer = some p) (hpre : PreDesc E.cfg p .bert)
    (before after : List (Str × Int)) (hproc : Surrounds c.postProcessor before after)
    (hplaces : ∀ x ∈ before ++ after, x ∈ v ∧ ∃ y ∈ c.addedTokens, y.special = true ∧ y.content = x.1)
    (hd : c.decoder = some d) (cleanup : Bool) (hdec : DecDesc d (.wordPiece "##".toList cleanup))
    (htr : c.truncation = none) (hpad : c.padding = none)
    (w₀ : Str) (rs : List (Str × Str)) (N : Str → Str) (hin : TokensInText c.addedTokens v w₀ rs N)
    (hf : ∀ r ∈ rs, ∃ x ∈ c.addedTokens, x.content = r.1 ∧ x.special = true)
    (hadd : ∀ x ∈ c.addedTokens, ∃ a r, x.content = '[' :: a :: r)
    (hn : ∀ w ∈ w₀ :: rs.map (·.2), NormSection E c.normalizer w (N w))
    (hw : ∀ w ∈ w₀ :: rs.map (·.2), ∀ y ∈ piecesOf (bertWords E.punc) w (N w), (y.length : Int) ≤ max ∧
      ∃ ps, Greedy (vocabPieces v max) true y ps) :
    ∃ (b : Built) (r : Encoding) (segs : Str → List (List Str)), fromReader E (some c) = .ok b ∧
      b.tok.encodeSingle (encStr (withTokens w₀ rs)) [true] = .ok (some r) ∧
      (∀ w ∈ w₀ :: rs.map (·.2), piecesOf (bertWords E.punc) w (N w) = (segs w).map List.flatten) ∧
      r.tokens = before.map (·.1) ++ interleave (fun w => ((segs w).map (wordValues ['#', '#'])).flatten) (fun c => c) w₀ rs ++
        after.map (·.1) ∧
      r.tokens.map b.state.tokenToId = r.ids.map some ∧
      b.decode r.ids true = .ok (encStr (if cleanup then tidy ((w₀ :: rs.map (·.2)).flatMap (fun w => piecesOf (bertWords E.punc) w (N w)))
        else joinSpace ((w₀ :: rs.map (·.2)).flatMap (fun w => piecesOf (bertWords E.punc) w (N w))))) := by
  -- the model
  obtain ⟨unk, hunk⟩ := hs.unk
  have hsub : ∃ pre : Option Str, IsOpt m "continuing_subword_prefix" .str pre ∧ ∀ p, pre = some p → p = "##".toList := by
    rcases hs.subword with h | h
    · exact ⟨none, h, by simp⟩
    · exact ⟨some "##".toList, h, fun p h => (Option.some.inj h).symm⟩
  obtain ⟨sub, hsub, hsub'⟩ := hsub
  obtain ⟨wp, m1, m2, m3, m4, m5⟩ := C69_wordPiece_partial m d v unk sub (some max) hs.type hs.vocab hunk hsub hs.length hsub'
  have m4 : wp.pre = ['#', '#'] := by
    rw [m4]
    cases sub with
    | none => rfl
    | some p => exact hsub' p rfl
  have m5 : wp.maxChars = max := m5
  have hvl := vocabList_ok hs.vocab
  have hvoc : (vocabOf m (.wordPiece wp)).vocab = v := hvl
  have hst : FreshModel (vocabOf m (.wordPiece wp)) := by
    have := fresh_good hs.good
    rw [← hvl] at this
    exact this
  obtain ⟨b, id, b1, b2, b3, b5, b6, b7⟩ := file_several (E := E) (c := c) hE.order ho' (a := .wordPiece wp)
    (by rw [hm, hd]; exact m1) (by rw [hm]; exact hst) (by rw [hm, Option.getD_some, hvoc]; exact hin) hn (g := bertWords E.punc) (.inr ⟨p, _, hp, hpre, .bert hE.ws⟩) hproc
    (dec := some (.wordPiece "##".toList cleanup)) (by rw [hd]; exact fromSection_some (C70_decoder_partial d _ hdec)) htr hpad
  rw [hm, Option.getD_some, hvoc] at b5
  -- the pieces
  have hws : ∀ w ∈ w₀ :: rs.map (·.2), ∀ x ∈ piecesOf (bertWords E.punc) w (N w), (x.length : Int) ≤ wp.maxChars ∧
      ∃ ps, Greedy wp true x ps ∧ ∀ q ∈ ps.head?, wp.pre.isPrefixOf q.1 = false := by
    intro w hww x h
    obtain ⟨h1, ps, h2⟩ := hw w hww x h
    refine ⟨by rw [m5]; exact h1, ps, greedy_vocab (fun t => by rw [m2]; rfl) (by rw [m4]; rfl) h2, ?_⟩
    intro q hq
    obtain ⟨h3, _⟩ := greedy_flatten h2
    cases ps with
    | nil => cases hq
    | cons p ps =>
      cases hq
      rw [m4]
      cases hpre : ['#', '#'].isPrefixOf q.1 with
      | false => rfl
      | true =>
        obtain ⟨r, hr⟩ := List.isPrefixOf_iff_prefix.mp hpre
        have h4 := piecesOf_mem h
        rw [← h3, List.map_cons, List.flatten_cons, ← hr] at h4
        exact absurd (bertWords_head h4 (hE.punc '#' (by simp))) (by simp)
  let tok : Str → List Token := fun w => match wp.tokenize w with
    | .ok ts => ts
    | _ => []
  have htok : ∀ w, wp.tokenize w = .ok (tok w) ∨ (∀ ts, wp.tokenize w ≠ .ok ts) := by
    intro w
    simp only [tok]
    cases wp.tokenize w with
    | ok ts => exact .inl rfl
    | err => exact .inr nofun
    | panic => exact .inr nofun
  have hgr : ∀ w ∈ w₀ :: rs.map (·.2), _ := fun w hww => greedy_words wp (piecesOf (bertWords E.punc) w (N w))
    (fun x hx => (bertWords_mem (piecesOf_mem hx)).1) (hws w hww) tok htok
  obtain ⟨r, h1, h2, h3⟩ := b7 tok (by
    intro w hww x hx
    obtain ⟨g1, g2, g3⟩ := (hgr w hww).1 x hx
    refine ⟨?_, g2, fun y hy => (g3 y hy).2⟩
    simp only [modelFn, wordPieceModel, decStr_enc, g1, Res.bind_ok])
  have hsegs : ∃ segs : Str → List (List Str), ∀ w ∈ w₀ :: rs.map (·.2),
      ((piecesOf (bertWords E.punc) w (N w)).flatMap tok).map (·.value) = ((segs w).map (wordValues ['#', '#'])).flatten ∧
      piecesOf (bertWords E.punc) w (N w) = (segs w).map List.flatten ∧
      ∀ s ∈ segs w, (∃ p ps, s = p :: ps ∧ ['#', '#'].isPrefixOf p = false) ∧ ∀ q ∈ s, q ≠ [] := by
    classical
    refine ⟨fun w => if h : w ∈ w₀ :: rs.map (·.2) then (hgr w h).2.choose else [], fun w hww => ?_⟩
    simp only [hww, dif_pos]
    simpa only [m4] using (hgr w hww).2.choose_spec
  obtain ⟨segs, hsegs⟩ := hsegs
  have hv : ∀ t i, mget v t = some i ↔ (t, i) ∈ v := mget_mem hs.good.names
  have htoks : ∀ w ∈ w₀ :: rs.map (·.2), ∀ x ∈ (piecesOf (bertWords E.punc) w (N w)).flatMap tok, mget v x.value = some x.id := by
    intro w hww x hx
    obtain ⟨y, hy, hx⟩ := List.mem_flatMap.mp hx
    have := (((hgr w hww).1 y hy).2.2 x hx).1
    rw [m2] at this
    exact this
  refine ⟨b, r, segs, b1, h1, fun w hww => (hsegs w hww).2.1, ?_, ?_, ?_⟩
  · rw [h2]
    exact congrArg (· ++ _) (congrArg (_ ++ ·) (interleave_congr (fun u hu => (hsegs u hu).1) (fun _ _ => rfl)))
  · have hside : ∀ l : List (Str × Int), (∀ x ∈ l, x ∈ before ++ after) →
        (l.map (·.1)).map b.state.tokenToId = (l.map (·.2)).map some := by
      intro l hl
      rw [List.map_map, List.map_map]
      apply List.map_congr_left
      intro x hx
      exact (b5 _ _ ((hv _ _).2 (hplaces x (hl x hx)).1)).2
    rw [h2, h3]
    simp only [List.map_append]
    rw [hside before (fun x hx => by simp [hx]), hside after (fun x hx => by simp [hx]), map_interleave, map_interleave]
    refine congrArg (· ++ _) (congrArg (_ ++ ·) (interleave_congr ?_ (fun r hr => (b3 r hr).1)))
    intro w hww
    rw [List.map_map, List.map_map]
    apply List.map_congr_left
    intro x hx
    exact (b5 _ _ (htoks w hww x hx)).2
  · -- the decoder
    have hsp : ∀ x ∈ before ++ after, b.state.idToToken x.2 = some x.1 ∧ b.state.isSpecial x.1 = true := by
      intro x hx
      obtain ⟨g1, y, hy, g2, g3⟩ := hplaces x hx
      exact ⟨(b5 _ _ ((hv _ _).2 g1)).1, (b6 _).2 ⟨g3 ▸ (hin.plain y hy).1, y, hy, g2, g3⟩⟩
    have hmid : interleave (fun w => ((piecesOf (bertWords E.punc) w (N w)).flatMap tok).map (·.id)) id w₀ rs =
        (interleave (fun w => ((piecesOf (bertWords E.punc) w (N w)).flatMap tok).map (fun x => (x.value, x.id)))
          (fun c => (c, id c)) w₀ rs).map (·.2) := by
      rw [map_interleave]
      simp [Function.comp_def]
    have hc₀ : ∀ r ∈ rs, b.state.isSpecial r.1 = true := by
      intro r hr
      obtain ⟨x, hx, h1, h2⟩ := hf r hr
      exact (b6 _).2 ⟨h1 ▸ (hin.plain x hx).1, x, hx, h2, h1⟩
    have hmem : ∀ w ∈ w₀ :: rs.map (·.2), ∀ g ∈ segs w, g.flatten ∈ bertWords E.punc (N w) := fun w hww g hg =>
      piecesOf_mem (by rw [(hsegs w hww).2.1]; exact List.mem_map_of_mem hg)
    have hnot : ∀ w ∈ w₀ :: rs.map (·.2), ∀ x ∈ ((segs w).map (wordValues ['#', '#'])).flatten, b.state.isSpecial x = false := by
      intro w hww x hx
      cases hq' : b.state.isSpecial x with
      | false => rfl
      | true =>
        exfalso
        obtain ⟨_, y, hy, _, rfl⟩ := (b6 _).1 hq'
        obtain ⟨c', r', e'⟩ := hadd y hy
        rw [e'] at hx
        obtain ⟨g, hg, hx⟩ := List.mem_flatten.mp hx
        obtain ⟨g, hg', rfl⟩ := List.mem_map.mp hg
        obtain ⟨⟨p, ps, rfl, _⟩, _⟩ := (hsegs w hww).2.2 g hg'
        simp only [wordValues, List.mem_cons] at hx
        rcases hx with hx | hx
        · have := hmem w hww _ hg'
          rw [← hx] at this
          exact absurd (bertWords_head this (hE.punc '[' (by simp))) (by simp)
        · obtain ⟨z, _, hz⟩ := List.mem_map.mp hx
          cases hz
    have hkept : b.state.decodeTokens true r.ids = (((w₀ :: rs.map (·.2)).flatMap segs).map (wordValues ['#', '#'])).flatten := by
      rw [h3, decodeTokens_append, decodeTokens_append, decodeTokens_special before (fun x hx => hsp x (by simp [hx])),
        decodeTokens_special after (fun x hx => hsp x (by simp [hx])), List.nil_append, List.append_nil, hmid, kept_filter,
        map_interleave, filter_interleave _ (fun r hr => by rw [hc₀ r hr]; rfl)]
      · have : ∀ ws : List Str, (∀ w ∈ ws, w ∈ w₀ :: rs.map (·.2)) → ws.flatMap (fun w =>
            ((((piecesOf (bertWords E.punc) w (N w)).flatMap tok).map (fun x => (x.value, x.id))).map (·.1)).filter
              (fun w => !b.state.isSpecial w)) = ((ws.flatMap segs).map (wordValues ['#', '#'])).flatten := by
          intro ws
          induction ws with
          | nil => intro _; rfl
          | cons w ws ih =>
            intro hsub
            have hww := hsub w (by simp)
            rw [List.flatMap_cons, ih (fun x hx => hsub x (by simp [hx])), List.flatMap_cons, List.map_append, List.flatten_append,
              List.map_map, ← (hsegs w hww).1]
            refine congrArg (· ++ _) (List.filter_eq_self.mpr ?_)
            intro x hx
            rw [hnot w hww x (by rw [← (hsegs w hww).1]; exact hx)]
            rfl
        exact this _ (fun _ h => h)
      · intro q hq
        rcases mem_interleave hq with ⟨w, hww, hq⟩ | ⟨r, hr, rfl⟩
        · obtain ⟨x, hx, rfl⟩ := List.mem_map.mp hq
          exact (b5 _ _ (htoks w hww x hx)).1
        · exact (b3 r hr).2
    have hpieces : (w₀ :: rs.map (·.2)).flatMap (fun w => piecesOf (bertWords E.punc) w (N w)) = ((w₀ :: rs.map (·.2)).flatMap segs).map List.flatten := by
      rw [List.map_flatMap, List.flatMap_def, List.flatMap_def]
      congr 1
      exact List.map_congr_left (fun w hww => (hsegs w hww).2.1)
    have h4 : ∀ g ∈ (w₀ :: rs.map (·.2)).flatMap segs, (∃ p ps, g = p :: ps ∧ ['#', '#'].isPrefixOf p = false) ∧ ∀ q ∈ g, q ≠ [] := by
      intro g hg
      obtain ⟨w, hww, hg⟩ := List.mem_flatMap.mp hg
      exact (hsegs w hww).2.2 g hg
    simp only [Built.decode, b2, Option.map_some, hkept]
    refine Eq.trans (wordpiece_decodeFn E cleanup _) ?_
    congr 2
    cases cleanup with
    | true =>
      rw [if_pos rfl, if_pos rfl, hpieces]
      refine tidy_pieces (fun c hc => hE.punc c ?_) (fun g hg => ?_) h4
      · simp only [List.mem_cons, List.not_mem_nil, or_false] at hc ⊢
        rcases hc with h | h | h | h | h <;> simp [h]
      · obtain ⟨w, hww, hg⟩ := List.mem_flatMap.mp hg
        exact ⟨_, hmem w hww g hg⟩
    | false =>
      rw [if_neg (by simp), if_neg (by simp), hpieces]
      exact wordpiece_segs ['#', '#'] _ (fun g hg => (h4 g hg).1)


/-! ### Cases -/

/-- To find the places of a content in a given text. -/
theorem only_check {w : Str} {rs : List (Str × Str)} {c : Str}
    (h : (List.range ((withTokens w rs).length + 1)).all (fun k => !c.isPrefixOf ((withTokens w rs).drop k) ||
      (List.range rs.length).any (fun i => decide ((rs[i]?.map (·.1)) = some c) &&
        decide ((withTokens w rs).take k = withTokens w (rs.take i)))) = true) (a b : Str) (e : withTokens w rs = a ++ c ++ b) :
    ∃ r1 r r2, rs = r1 ++ r :: r2 ∧ r.1 = c ∧ a = withTokens w r1 := by
  rw [List.all_eq_true] at h
  have hl : a.length < (withTokens w rs).length + 1 := by rw [e]; simp only [List.length_append]; omega
  have := h a.length (List.mem_range.mpr hl)
  have hd : (withTokens w rs).drop a.length = c ++ b := by rw [e, List.append_assoc, List.drop_left]
  have ht : (withTokens w rs).take a.length = a := by rw [e, List.append_assoc, List.take_left]
  rw [hd, ht, List.isPrefixOf_iff_prefix.mpr ⟨b, rfl⟩, Bool.not_true, Bool.false_or, List.any_eq_true] at this
  obtain ⟨i, hi, h1⟩ := this
  rw [List.mem_range] at hi
  rw [Bool.and_eq_true, decide_eq_true_eq, decide_eq_true_eq, List.getElem?_eq_getElem hi] at h1
  refine ⟨rs.take i, rs[i], rs.drop (i + 1), ?_, Option.some.inj h1.1, h1.2⟩
  rw [← List.drop_eq_getElem_cons hi, List.take_append_drop]

/-- A BERT file with two special tokens. -/
def exampleMasksFile : FileConfig :=
  { exampleMaskFile with addedTokens := [{ id := 1, content := "[SEP]".toList, special := true },
      { id := 5, content := "[MASK]".toList, special := true }] }

/-- `![SEP]![MASK]!`: the tokens are in the order of the file. -/
theorem example_masks_in : TokensInText exampleMasksFile.addedTokens exampleBertVocab "!".toList
    [("[SEP]".toList, "!".toList), ("[MASK]".toList, "!".toList)] id := by
  have hmem : ∀ x ∈ exampleMasksFile.addedTokens, x = { id := 1, content := "[SEP]".toList, special := true } ∨
      x = { id := 5, content := "[MASK]".toList, special := true } := by
    intro x hx
    simpa [exampleMasksFile] using hx
  refine ⟨by decide +kernel, ?_, ?_, ?_, ⟨fun _ => 1, by rfl⟩, ?_⟩
  · intro x hx
    rcases hmem x hx with rfl | rfl <;> exact ⟨by decide, rfl⟩
  · intro r hr
    simp only [List.mem_cons, List.not_mem_nil, or_false] at hr
    rcases hr with rfl | rfl
    · exact ⟨_, List.mem_cons_self .., rfl, rfl, rfl, rfl, .inl rfl⟩
    · exact ⟨_, List.mem_cons_of_mem _ (List.mem_cons_self ..), rfl, rfl, rfl, rfl, .inl rfl⟩
  · intro x hx _
    rcases hmem x hx with rfl | rfl <;> exact only_check (by decide +kernel)
  · intro x hx h
    rcases hmem x hx with rfl | rfl <;> cases h

example (E : FileEnv) (hE : BertEnv E.toEnv)
    (ho' : ∀ l : List PatMatch, SortedById l → l.Pairwise (fun a b => a.start ≤ b.start) → E.order l = l) :
    ∃ b r, fromReader E (some exampleMasksFile) = .ok b ∧
      b.tok.encodeSingle (encStr "![SEP]![MASK]!".toList) [true] = .ok (some r) ∧
      b.decode r.ids true = .ok (encStr (tidy ["!".toList, "!".toList, "!".toList])) := by
  have hp : piecesOf (bertWords E.punc) ['!'] (id ['!']) = [['!']] := by simp [piecesOf, bertWords, Norm.runs, isS]
  obtain ⟨b, r, segs, h1, h2, _, _, _, h3⟩ := C137_bert_partial E hE ho' exampleMasksFile _
    [("type".toList, .str "BertPreTokenizer".toList)]
    [("type".toList, .str "WordPiece".toList), ("prefix".toList, .str "##".toList), ("cleanup".toList, .bool true)]
    exampleBertVocab 100 0 1 rfl (exampleBert_section _) rfl (.bert _ (by unfold TypeIs; rfl)) [] [] (.inl ⟨rfl, rfl, rfl⟩) (by simp)
    rfl true (.wordPiece _ _ _ (by unfold TypeIs; rfl) (by unfold StrIs; rfl) (by rfl)) rfl rfl _ _ _ example_masks_in (by
      intro r hr
      simp only [List.mem_cons, List.not_mem_nil, or_false] at hr
      rcases hr with rfl | rfl
      · exact ⟨_, List.mem_cons_self .., rfl, rfl⟩
      · exact ⟨_, List.mem_cons_of_mem _ (List.mem_cons_self ..), rfl, rfl⟩) (by
      intro x hx
      simp only [exampleMasksFile, List.mem_cons, List.not_mem_nil, or_false] at hx
      rcases hx with rfl | rfl <;> exact ⟨_, _, rfl⟩) (fun w _ => .inl ⟨rfl, rfl⟩) (by
      intro w hw y hy
      have hw : w = ['!'] := by simpa using hw
      subst hw
      rw [hp] at hy
      have : y = ['!'] := by simpa using hy
      subst this
      refine ⟨by decide, [(['!'], 4)], .cons true ['!'] [] 4 _ (by simp) rfl ?_ (.nil _)⟩
      intro p r h hl
      have h2 := congrArg List.length h
      simp only [List.length_append, List.length_cons, List.length_nil] at h2 hl
      omega)
  refine ⟨b, r, h1, h2, ?_⟩
  rw [h3, if_pos rfl]
  have hp' : piecesOf (bertWords E.punc) "!".toList (id "!".toList) = ["!".toList] := hp
  simp only [List.map_cons, List.map_nil, List.flatMap_cons, List.flatMap_nil, hp']
  rfl

/-- `b` before `a`, registered in the order `a`, `b`: only `a` is found. -/
example (E : FileEnv) (hp : Permutes E.order) (ho : ∀ l, SortedById (E.order l))
    (model : List UInt8 → Res (Option (List Token))) (hm : ∀ y : Str, model (encStr y) = .ok (some [⟨7, y, (0, 1)⟩])) :
    ∃ (re : MatchingSet) (e : Encoding),
      buildSet E.wordChar none E.order [(⟨"<a>".toList, false, false, false, false⟩, 1), (⟨"<b>".toList, false, false, false, false⟩, 2)] = .ok re ∧
      (⟨re, ⟨[], fun _ => []⟩, none, none, some model⟩ : Tk).encodeSingle (.raw (encStr "<b>x<a>".toList)) 0 .byte = .ok e ∧
      e.ids = [7, 1] ∧ e.tokens = ["<b>x".toList, "<a>".toList] := by
  have hmk : Marked "<a>".toList "<b>x<a>".toList ["<b>x".toList, []] := by
    refine .cons "<b>x".toList [] _ ?_ (.last _ (by decide))
    intro a b h
    obtain ⟨r1, r, r2, e1, _, e3⟩ := only_check (w := "<b>x".toList) (rs := [("<a>".toList, [])]) (c := "<a>".toList)
      (by decide +kernel) a b h
    cases r1 with
    | nil => rw [e3]; decide
    | cons => simp at e1
  have hb : ∀ p q : Str, "<b>x<a>".toList = p ++ "<b>".toList ++ q → p.length < "<b>x".toList.length + "<a>".toList.length := by
    intro p q h
    have := congrArg List.length h
    simp only [List.length_append] at this
    have h7 : "<b>x<a>".toList.length = 7 := by decide
    have h3 : "<b>".toList.length = 3 := by decide
    have h4 : "<b>x".toList.length = 4 := by decide
    have h5 : "<a>".toList.length = 3 := by decide
    omega
  obtain ⟨re, hre, _⟩ := set_first E.wordChar (norm := none) E.order hp ho (before := [])
    (after := [(⟨"<b>".toList, false, false, false, false⟩, 2)]) (a := ⟨"<a>".toList, false, false, false, false⟩) (id := 1)
    rfl rfl rfl (by decide) hmk (by simp) (by
      intro e he
      rw [List.mem_singleton] at he
      subst he
      exact ⟨by decide, rfl, rfl, rfl, hb⟩)
  obtain ⟨e, e', _, h1, h2, h3, _⟩ := C137_order_violated ⟨re, ⟨[], fun _ => []⟩, none, none, some model⟩ E.wordChar E.order hp ho []
    [(⟨"<b>".toList, false, false, false, false⟩, 2)] ⟨"<a>".toList, false, false, false, false⟩ 1 hre (by decide)
    rfl rfl rfl (by decide) _ _ _ hmk (by simp) (by
      intro e he
      rw [List.mem_singleton] at he
      subst he
      exact ⟨by decide, rfl, rfl, rfl, hb⟩) id (fun w _ => .inl ⟨rfl, rfl⟩) (fun _ _ => rfl) (fun s => [s]) (.inl ⟨rfl, fun _ => rfl⟩)
    (fun y => [⟨7, y, (0, 1)⟩]) (fun w _ y _ => ⟨_, rfl, hm y, by simp, by simp⟩) 0 .byte
  exact ⟨re, e, hre, h1, by rw [h2]; rfl, by rw [h3]; rfl⟩

end Tok.Whole
