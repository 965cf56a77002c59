import Verif.Whole.ProcAdds
import Verif.PreTok.MetaParts
import Verif.Unigram.Known

/-!
# C130: a Unigram tokenizer from a file gives texts back
-/

namespace Tok.Whole

open Tok.PreTok Tok.Added Tok.Config Tok.Regex
open Tok.Norm (NStr classEngine)

/-! ### Specification -/

/-- The section "model" of a Unigram tokenizer: a vocabulary with scores in which no token is twice, no byte fallback. -/
structure UnigramSection (m d : List (Str × Val)) (v : List (Str × Rat)) (unk : Option Int) : Prop where
  type : Asks m d "Unigram"
  vocab : get m "vocab" = scoresVal v
  unkId : IsOpt m "unk_id" (fun i : Int => .float i) unk
  within : ∀ i, unk = some i → i < (v.length : Int)
  fallback : IsOpt m "byte_fallback" .bool (none : Option Bool) ∨ IsOpt m "byte_fallback" .bool (some false)
  fuse : ∃ fu, IsOpt m "fuse_unk" .bool fu
  names : (v.map (·.1)).Nodup

/-- The token `t` has the place `i` in the vocabulary. -/
def HasPlace (v : List (Str × Rat)) (t : Str) (i : Int) : Prop := ∃ (k : Nat) (x : Rat), i = k ∧ v[k]? = some (t, x)

/-! ### Lemmas -/

/-- A word without the replacement character in the text with replacements is in the text itself. -/
theorem infix_meta {r : Char} {a : Bool} {s w : Str} (hw : r ∉ w) (hi : w <:+: metaText r a s) : w <:+: s := by
  have hmap : ∀ {w : Str}, r ∉ w → w <:+: s.map (fun c => if isSpace c then r else c) → w <:+: s := by
    rintro w hw ⟨x, y, e⟩
    obtain ⟨l₁, l₂, rfl, e1, e2⟩ := List.append_eq_map_iff.mp e
    obtain ⟨m₁, m₂, rfl, e3, e4⟩ := List.append_eq_map_iff.mp e1.symm
    refine ⟨m₁, l₂, ?_⟩
    have : w = m₂ := by
      rw [← e4]
      conv => rhs; rw [← List.map_id m₂]
      apply List.map_congr_left
      intro c hc
      by_cases h : isSpace c = true
      · exfalso
        apply hw
        rw [← e4]
        exact List.mem_map.mpr ⟨c, hc, by simp [h]⟩
      · simp [h]
    rw [this]
  by_cases h0 : w = []
  · subst h0
    exact ⟨[], s, rfl⟩
  unfold metaText at hi
  simp only at hi
  split at hi
  · obtain ⟨x, y, e⟩ := hi
    cases x with
    | nil =>
      cases w with
      | nil => exact absurd rfl h0
      | cons d w =>
        simp only [List.nil_append, List.cons_append, List.cons.injEq] at e
        exact absurd (by simp [e.1]) hw
    | cons d x =>
      simp only [List.cons_append, List.cons.injEq] at e
      exact hmap hw ⟨x, y, e.2⟩
  · exact hmap hw hi

theorem cutBefore_infix {r : Char} {t w : Str} (h : w ∈ cutBefore r t) : w <:+: t := by
  obtain ⟨l₁, l₂, e⟩ := List.append_of_mem h
  refine ⟨l₁.flatten, l₂.flatten, ?_⟩
  conv => rhs; rw [← cutBefore_flatten r t, e]
  simp

theorem unigram_place {v : List (Str × Rat)} {u : Unigram Rat} (hv : u.vocab = v.map (fun e => (encStr e.1, e.2)))
    (t : Str) (i : Int) : u.idToToken i = some (encStr t) ↔ HasPlace v t i := by
  unfold Unigram.idToToken HasPlace
  constructor
  · intro h
    split at h
    · cases h
    · rw [hv, List.getElem?_map, Option.map_map, Option.map_eq_some_iff] at h
      obtain ⟨⟨t', x⟩, h1, h2⟩ := h
      have := encStr_inj h2
      dsimp only at this
      subst this
      exact ⟨i.toNat, x, by omega, h1⟩
  · rintro ⟨k, x, rfl, h⟩
    rw [if_neg (by omega), hv, List.getElem?_map, Int.toNat_natCast, h]
    rfl

theorem tokenToId_place {v : List (Str × Rat)} {u : Unigram Rat} (hv : u.vocab = v.map (fun e => (encStr e.1, e.2)))
    (hn : (v.map (·.1)).Nodup) (t : Str) (i : Int) :
    (∃ k : Nat, u.tokenToId (encStr t) = some k ∧ i = k) ↔ HasPlace v t i := by
  have hnod : (u.vocab.map (·.1)).Nodup := by
    rw [hv, List.map_map]
    have h2 : v.map ((fun x : Bytes × Rat => x.1) ∘ fun e : Str × Rat => (encStr e.1, e.2)) = (v.map (·.1)).map encStr := by
      rw [List.map_map]; rfl
    rw [h2]
    exact List.pairwise_map.mpr (hn.imp (fun h e => h (encStr_inj e)))
  rw [← unigram_place hv]
  constructor
  · rintro ⟨k, h, rfl⟩
    exact (Unigram.C68_token_id_token u _ k h).1
  · intro h
    have h0 := (Unigram.C68_ids u i).1 ⟨_, h⟩
    obtain ⟨k, rfl⟩ : ∃ k : Nat, i = k := ⟨i.toNat, by omega⟩
    exact ⟨k, Unigram.C68_id_token_id_partial u hnod k _ h, rfl⟩

theorem metaspace_decodeFn (E : FileEnv) (r : Char) (a : Bool) (ts : List Str) :
    decodeFn E (.metaspace [r] a) (ts.map encStr) =
      .ok (encStr ((Metaspace.mk [r] (if a then .always else .never) a (E.engine [r])).decode ts)) := by
  simp only [decodeFn, chainFn, onText, Res.bind_ok, List.map_map]
  have : ts.map (decStr ∘ encStr) = ts := by
    conv => rhs; rw [← List.map_id ts]
    apply List.map_congr_left
    intro t _
    exact decStr_enc t
  rw [this]
  unfold Metaspace.decode
  generalize Metaspace.decodeChain _ ts = l
  congr 1
  induction l with
  | nil => rfl
  | cons x l ih => rw [List.map_cons, List.flatten_cons, ih, List.flatten_cons, encStr_append]

theorem unigram_fresh {m : List (Str × Val)} {v : List (Str × Rat)} {u : Unigram Rat}
    (hv : u.vocab = v.map (fun e => (encStr e.1, e.2))) (hn : (v.map (·.1)).Nodup) :
    FreshModel (vocabOf m (.unigram u)) ∧ ∀ t i, mget (vocabOf m (.unigram u)).vocab t = some i ↔ HasPlace v t i := by
  have hloop : ∀ (l : List (Str × Rat)) (i : Nat) (acc : List (Bytes × Nat)),
      (acc.map (·.1)).Nodup → (∀ k ∈ acc.map (·.1), ∃ t, k = encStr t) →
      ((Unigram.vocabLoop i (l.map (fun e => (encStr e.1, e.2))) acc).map (·.1)).Nodup ∧
      ∀ k ∈ (Unigram.vocabLoop i (l.map (fun e => (encStr e.1, e.2))) acc).map (·.1), ∃ t, k = encStr t := by
    intro l
    induction l with
    | nil => intro i acc h1 h2; exact ⟨h1, h2⟩
    | cons e l ih =>
      intro i acc h1 h2
      rw [List.map_cons, Unigram.vocabLoop]
      apply ih _ _ (mset_nodup _ _ _ h1)
      intro k hk
      rw [mset_keys] at hk
      split at hk
      · exact h2 k hk
      · rcases List.mem_append.mp hk with hk | hk
        · exact h2 k hk
        · exact ⟨e.1, List.mem_singleton.mp hk⟩
  obtain ⟨hkeys, htext⟩ : (u.getVocab.map (·.1)).Nodup ∧ ∀ k ∈ u.getVocab.map (·.1), ∃ t, k = encStr t := by
    unfold Unigram.getVocab
    rw [hv]
    exact hloop v 0 [] (by simp) (by simp)
  have hmap : ∀ (l : List (Bytes × Nat)), (∀ k ∈ l.map (·.1), ∃ t, k = encStr t) → ∀ t : Str,
      mget (l.map (fun p => (decStr p.1, (p.2 : Int)))) t = (mget l (encStr t)).map (fun k : Nat => (k : Int)) := by
    intro l
    induction l with
    | nil => intro _ t; rfl
    | cons p l ih =>
      intro h t
      have ih := ih (fun q hq => h q (by simp only [List.map_cons, List.mem_cons]; exact .inr hq)) t
      obtain ⟨t', ht⟩ := h p.1 (by simp)
      obtain ⟨b, k⟩ := p
      dsimp only at ht
      subst ht
      rw [List.map_cons, mget, mget, ih, decStr_enc]
      by_cases he : t' = t
      · subst he; simp
      · have : ¬ encStr t' = encStr t := fun h => he (encStr_inj h)
        simp [he, this]
  have hget : ∀ t i, mget (vocabOf m (.unigram u)).vocab t = some i ↔ HasPlace v t i := by
    intro t i
    rw [← tokenToId_place hv hn]
    show mget (u.getVocab.map (fun p => (decStr p.1, (p.2 : Int)))) t = some i ↔ _
    rw [hmap _ htext, Unigram.C68_vocab]
    constructor
    · intro h
      obtain ⟨k, h1, h2⟩ := Option.map_eq_some_iff.mp h
      exact ⟨k, h1, h2.symm⟩
    · rintro ⟨k, h1, h2⟩
      rw [h1, h2]; rfl
  refine ⟨⟨⟨rfl, rfl, rfl, rfl, rfl, rfl, rfl⟩, ?_, ?_, ?_⟩, hget⟩
  · show ((u.getVocab.map (fun p => (decStr p.1, (p.2 : Int)))).map (·.1)).Nodup
    have e : (u.getVocab.map (fun p => (decStr p.1, (p.2 : Int)))).map (·.1) = (u.getVocab.map (·.1)).map decStr := by
      rw [List.map_map, List.map_map]; rfl
    rw [e]
    refine List.pairwise_map.mpr (hkeys.imp_of_mem ?_)
    intro a b ha hb h he
    obtain ⟨x, rfl⟩ := htext a ha
    obtain ⟨y, rfl⟩ := htext b hb
    rw [decStr_enc, decStr_enc] at he
    exact h (by rw [he])
  · intro t i h
    obtain ⟨k, x, rfl, h2⟩ := (hget t i).1 h
    refine ⟨by omega, ?_⟩
    show (k : Int) < ((u.vocab.length : Nat) : Int)
    have := (List.getElem?_eq_some_iff.mp h2).1
    rw [hv, List.length_map]
    omega
  · intro t i
    rw [hget, ← unigram_place hv]
    show (u.idToToken i).map decStr = some t ↔ _
    constructor
    · intro h
      obtain ⟨b, h1, h2⟩ := Option.map_eq_some_iff.mp h
      have : ∃ t', b = encStr t' := by
        unfold Unigram.idToToken at h1
        split at h1
        · cases h1
        · rw [hv, List.getElem?_map, Option.map_map, Option.map_eq_some_iff] at h1
          obtain ⟨e, _, h3⟩ := h1
          exact ⟨_, h3.symm⟩
      obtain ⟨t', rfl⟩ := this
      rw [decStr_enc] at h2
      rw [← h2]; exact h1
    · intro h
      rw [h, Option.map_some, decStr_enc]

theorem flat_values {f : Str → List Token} (ps : List Str) (h : ∀ w ∈ ps, ((f w).map (·.value)).flatten = w) :
    ((ps.flatMap f).map (·.value)).flatten = ps.flatten := by
  induction ps with
  | nil => rfl
  | cons w ps ih =>
    rw [List.flatMap_cons, List.map_append, List.flatten_append, h w (by simp), ih (fun x hx => h x (by simp [hx])),
      List.flatten_cons]

theorem decodeTokens_special {T : VocabState} (l : List (Str × Int)) (h : ∀ p ∈ l, T.idToToken p.2 = some p.1 ∧ T.isSpecial p.1 = true) :
    T.decodeTokens true (l.map (·.2)) = [] := by
  induction l with
  | nil => rfl
  | cons p l ih =>
    obtain ⟨h1, h2⟩ := h p (by simp)
    simp only [List.map_cons, VocabState.decodeTokens, h1, h2, ih (fun q hq => h q (by simp [hq]))]
    simp

/-! ### C130 -/

/-- C130: a file with a Unigram model, the pre-tokenizer and the decoder Metaspace, a post-processor that puts special
tokens around the text (or none) and any added tokens makes a tokenizer that encodes every text of known characters; the
tokens between the special ones are tokens of the vocabulary that make up the text with the replacement for white space,
and `Decode` without special tokens gives the text back, with white space as spaces; with a prefix, a white space at the
beginning is lost. -/
theorem C130_unigram_partial (E : FileEnv) (ho : ∀ l, (E.order l).Perm l) (c : FileConfig) (m p d : List (Str × Val))
    (v : List (Str × Rat)) (unk : Option Int) (hm : c.model = some m) (hs : UnigramSection m d v unk)
    (r : Char) (hr : E.engine [r] = classEngine (fun c => c == r)) (sch : Scheme) (a : Bool) (ha : a = decide (sch ≠ .never))
    (hp : c.preTokenizer = some p) (hpre : PreDesc E.cfg p (.metaspace [r] sch a))
    (hd : c.decoder = some d) (hdec : DecDesc d (.metaspace [r] a))
    (hn : c.normalizer = none) (htr : c.truncation = none) (hpad : c.padding = none)
    (before after : List (Str × Int)) (hproc : Surrounds c.postProcessor before after)
    (hplaces : ∀ x ∈ before ++ after, HasPlace v x.1 x.2 ∧ ∃ y ∈ c.addedTokens, y.special = true ∧ y.content = x.1)
    (s : Str) (hrs : r ∉ s) (hnul : a = true → s.head? ≠ some '\x00')
    (hadd : ∀ x ∈ c.addedTokens, x.content ≠ [] ∧ r ∉ x.content ∧ ¬ x.content <:+: s)
    (hchars : ∀ ch ∈ metaText r a s, ∃ i, HasPlace v [ch] i)
    (hunk : ∀ i t, unk = some i → HasPlace v t i → r ∉ t ∧ ¬ t <:+: s) :
    ∃ (b : Built) (e : Encoding) (ts : List Str), fromReader E (some c) = .ok b ∧
      b.tok.encodeSingle (encStr s) [true] = .ok (some e) ∧
      ts.flatten = metaText r a s ∧ (∀ t ∈ ts, t ≠ []) ∧
      e.tokens = before.map (·.1) ++ ts ++ after.map (·.1) ∧
      (e.tokens.length = e.ids.length ∧ ∀ q ∈ e.tokens.zip e.ids, HasPlace v q.1 q.2) ∧
      b.decode e.ids true = .ok (encStr (if a ∧ s.head?.any isSpace then PreTok.spaced s.tail else PreTok.spaced s)) := by
  -- the model
  obtain ⟨fu, hfu⟩ := hs.fuse
  have hbf : ∃ bf : Option Bool, IsOpt m "byte_fallback" .bool bf ∧ bf.getD false = false := by
    rcases hs.fallback with h | h
    · exact ⟨none, h, rfl⟩
    · exact ⟨some false, h, rfl⟩
  obtain ⟨bf, hbf, hbf0⟩ := hbf
  obtain ⟨u, m1, m2, m3, m4, _⟩ := (C69_unigram m d v unk bf fu hs.type hs.vocab hs.unkId hbf hfu).2 hs.within
  rw [hbf0] at m4
  have htv : u.TextVocab := by
    intro e he
    rw [m2] at he
    obtain ⟨x, _, rfl⟩ := List.mem_map.mp he
    exact ⟨x.1, rfl⟩
  obtain ⟨hst, hget⟩ := unigram_fresh (m := m) m2 hs.names
  obtain ⟨T, re, reN, k1, k2, k3, k4, k5, k6, k7⟩ := load_quiet hst c.addedTokens E.wordChar (norm := none) ho s s
    (fun x hx _ => absent_none ⟨(hadd x hx).1, (hadd x hx).2.2⟩) (fun x hx _ => absent_none ⟨(hadd x hx).1, (hadd x hx).2.2⟩)
  obtain ⟨pc, p1, p2⟩ := surrounds_post hproc
  -- the tokens of the pieces
  have hmodel : ∀ w ∈ cutBefore r (metaText r a s), ∃ ts : List Token, unigramModel u (encStr w) = .ok (some ts) ∧
      (ts.map (·.value)).flatten = w ∧ ∀ x ∈ ts, x.value ≠ [] ∧ 0 ≤ x.offsets.1 ∧ x.offsets.1 ≤ x.offsets.2 ∧
        ∃ id : Nat, u.tokenToId (encStr x.value) = some id ∧ x.id = id := by
    intro w hw
    have hi := cutBefore_infix hw
    apply Unigram.unigramModel_known u htv m4 w
    · intro ch hch
      obtain ⟨i, hpl⟩ := hchars ch (hi.subset hch)
      obtain ⟨k, hk, _⟩ := (tokenToId_place m2 hs.names _ _).2 hpl
      rw [hk]; simp
    · intro uid t hu ht hti
      rw [m3] at hu
      obtain ⟨g1, g2⟩ := hunk uid t hu ((unigram_place m2 t uid).1 ht)
      exact g2 (infix_meta g1 (hti.trans hi))
  let tok : Str → List Token := fun w =>
    match unigramModel u (encStr w) with
    | .ok (some ts) => ts
    | _ => []
  have htok : ∀ w ∈ cutBefore r (metaText r a s), unigramModel u (encStr w) = .ok (some (tok w)) ∧
      ((tok w).map (·.value)).flatten = w ∧ ∀ x ∈ tok w, x.value ≠ [] ∧ 0 ≤ x.offsets.1 ∧ x.offsets.1 ≤ x.offsets.2 ∧
        ∃ id : Nat, u.tokenToId (encStr x.value) = some id ∧ x.id = id := by
    intro w hw
    obtain ⟨ts, g1, g2, g3⟩ := hmodel w hw
    have : tok w = ts := by simp only [tok, g1]
    rw [this]
    exact ⟨g1, g2, g3⟩
  have hflat := flat_values (f := tok) (cutBefore r (metaText r a s)) (fun w hw => (htok w hw).2.1)
  rw [cutBefore_flatten] at hflat
  -- the encoding
  generalize hT : (⟨re, reN, none, some (preFn E (.metaspace [r] sch a)), some (unigramModel u)⟩ : Tk) = t
  have henc : ∃ rows, t.encodeSingle (.raw (encStr s)) 0 .byte = .ok (ofRows rows 0) ∧
      (ofRows rows 0).ids = ((cutBefore r (metaText r a s)).flatMap tok).map (·.id) ∧
      (ofRows rows 0).tokens = ((cutBefore r (metaText r a s)).flatMap tok).map (·.value) := by
    have hready : ∃ pt pt', t.extractAndNormalize (encStr s) = .ok pt ∧ t.doPreTokenize pt = .ok pt' ∧
        Holding pt' ((cutBefore r (metaText r a s)).map (fun w => (w, none))) := by
      have hpf : preFn E (.metaspace [r] sch a) = (Metaspace.mk [r] sch a (E.engine [r])).preTokenize := by
        funext pt; rw [preFn]
      by_cases hs0 : s = []
      · subst hs0
        refine ⟨⟨[], []⟩, ⟨[], []⟩, by rw [encStr_nil]; exact extract_nil t, ?_, ⟨?_, ?_, ?_⟩⟩
        · subst hT
          simp only [Tk.doPreTokenize, hpf]
          rfl
        · simp [metaText, cutBefore]
        · simp [metaText, cutBefore]
        · simp
      · obtain ⟨y, e1, e2⟩ := extract_none (t := t) (by subst hT; rfl) (s := s) (by subst hT; exact ⟨k4, k5⟩) hs0
        obtain ⟨pt', e3, e4⟩ := meta_holding (Metaspace.mk [r] sch a (E.engine [r])) r rfl hr a
          (by
            intro n
            subst ha
            cases sch <;> rfl) hs0 hnul e2.2.1 (encStr s)
        refine ⟨_, pt', e1, ?_, e4⟩
        subst hT
        simp only [Tk.doPreTokenize, hpf, e3]
    obtain ⟨pt, pt', e1, e2, e3⟩ := hready
    obtain ⟨e, h1, h2, h3, _, rows, rfl⟩ := holding_encode e1 e2 e3 (tok := tok) (by
      intro w hw
      obtain ⟨g1, g2, g3⟩ := htok w hw
      refine ⟨unigramModel u, by subst hT; rfl, g1, ?_, fun x hx => ⟨(g3 x hx).2.1, (g3 x hx).2.2.1⟩⟩
      intro h0
      rw [h0] at g2
      exact cutBefore_ne r _ w hw g2.symm) 0 .byte
    exact ⟨rows, h1, h2, h3⟩
  obtain ⟨rows, h1, h2, h3⟩ := henc
  obtain ⟨e, l1, l2, l3⟩ := p2 rows
  have hmem : ∀ x ∈ (cutBefore r (metaText r a s)).flatMap tok, x.value ≠ [] ∧ HasPlace v x.value x.id ∧ x.value <:+: metaText r a s := by
    intro x hx
    obtain ⟨w, hw, hx'⟩ := List.mem_flatMap.mp hx
    obtain ⟨_, _, g3⟩ := htok w hw
    obtain ⟨g4, _, _, id, g5, g6⟩ := g3 x hx'
    refine ⟨g4, (tokenToId_place m2 hs.names _ _).1 ⟨id, g5, g6⟩, ?_⟩
    obtain ⟨l₁, l₂, e'⟩ := List.append_of_mem hx
    refine ⟨(l₁.map (·.value)).flatten, (l₂.map (·.value)).flatten, ?_⟩
    rw [← hflat, e']
    simp
  have hknown : ∀ t i, HasPlace v t i → T.idToToken i = some t := fun t i h => k6 t i ((hget t i).2 h)
  have hkept : T.decodeTokens true (ofRows rows 0).ids = ((cutBefore r (metaText r a s)).flatMap tok).map (·.value) := by
    rw [h2, kept_tokens]
    · intro x hx
      exact hknown _ _ (hmem x hx).2.1
    · intro _ x hx
      cases hq : T.isSpecial x.value with
      | false => rfl
      | true =>
        exfalso
        obtain ⟨_, y, hy, _, hy2⟩ := (k7 _).1 hq
        obtain ⟨_, g2, g3⟩ := hadd y hy
        rw [hy2] at g2 g3
        exact g3 (infix_meta g2 (hmem x hx).2.2)
  have hsp : ∀ x ∈ before ++ after, T.idToToken x.2 = some x.1 ∧ T.isSpecial x.1 = true := by
    intro x hx
    obtain ⟨g1, y, hy, g2, g3⟩ := hplaces x hx
    exact ⟨hknown _ _ g1, (k7 _).2 ⟨g3 ▸ (hadd y hy).1, y, hy, g2, g3⟩⟩
  refine ⟨_, e, ((cutBefore r (metaText r a s)).flatMap tok).map (·.value), fromReader_ok (n := none)
    (pre := some (.metaspace [r] sch a)) (proc := pc) (dec := some (.metaspace [r] a)) (tr := none)
    (by rw [hm, hd]; exact m1) (by rw [hn]; rfl)
    (by rw [hp]; exact fromSection_some (C70_preTokenizer_partial E.cfg p _ hpre)) p1
    (by rw [hd]; exact fromSection_some (C70_decoder_partial d _ hdec))
    (by rw [hm]; exact k1) k2 k3 (by rw [htr]; rfl), ?_, hflat, ?_, by rw [l3, h3], ⟨?_, ?_⟩, ?_⟩
  · rw [hpad]
    simp only [Option.map_some, Option.map_none, createPadding, Tokenizer.encodeSingle, Tokenizer.encode, Tokenizer.encodeWith, modelFn]
    rw [hT, h1]
    simp only [Res.bind_ok, List.headD_cons]
    exact l1
  · intro t ht
    obtain ⟨x, hx, rfl⟩ := List.mem_map.mp ht
    exact (hmem x hx).1
  · rw [l2, l3, h2, h3]; simp
  · intro q hq
    rw [l2, l3, h2, h3, List.zip_append (by simp), List.zip_append (by simp)] at hq
    have hz : ∀ l : List (Str × Int), (l.map (·.1)).zip (l.map (·.2)) = l := by
      intro l
      induction l with
      | nil => rfl
      | cons x l ih => simp [ih]
    rw [hz, hz] at hq
    rcases List.mem_append.mp hq with hq | hq
    · rcases List.mem_append.mp hq with hq | hq
      · exact (hplaces q (by simp [hq])).1
      · rw [List.zip_map'] at hq
        obtain ⟨x, hx, rfl⟩ := List.mem_map.mp hq
        exact (hmem x hx).2.1
    · exact (hplaces q (by simp [hq])).1
  · simp only [Built.decode, Option.map_some]
    rw [l2, decodeTokens_append, decodeTokens_append, decodeTokens_special before (fun x hx => hsp x (by simp [hx])),
      decodeTokens_special after (fun x hx => hsp x (by simp [hx])), hkept, List.nil_append, List.append_nil,
      metaspace_decodeFn, ← unmeta_metaText r a s hrs]
    refine congrArg (fun x => Res.ok (encStr x)) ?_
    cases hmt : metaText r a s with
    | nil => simp [cutBefore, unmeta, Metaspace.decode, Metaspace.decodeChain]
    | cons ch rest =>
      rw [hmt] at hflat htok
      obtain ⟨q, qs, e1, e2, _⟩ := cutBefore_cons r ch rest
      have hw := htok (ch :: q) (by rw [e1]; simp)
      cases hk : tok (ch :: q) with
      | nil =>
        rw [hk] at hw
        exact absurd hw.2.1 (by simp)
      | cons x xs =>
        rw [hk] at hw
        have hx0 := (hw.2.2 x (by simp)).1
        have hw2 := hw.2.1
        rw [List.map_cons, List.flatten_cons] at hw2
        cases hxv : x.value with
        | nil => exact absurd hxv hx0
        | cons ch' q' =>
          rw [hxv, List.cons_append, List.cons.injEq] at hw2
          have hq' : r ∉ q' := fun h => e2 (by rw [← hw2.2]; simp [h])
          rw [decode_fine (Metaspace.mk [r] (if a then .always else .never) a (E.engine [r])) r rfl _ ch' q'
            (xs.map (·.value) ++ (qs.flatMap tok).map (·.value)) (by
              rw [e1, List.flatMap_cons, hk]
              simp [hxv]) hq', hflat]

/-! ### A file that meets the hypotheses -/

def exampleUnigramVocab : List (Str × Rat) :=
  [(['<', 'u', '>'], 0), (['<', '/', 's', '>'], 0), (['▁'], -2), (['h'], -3), (['i'], -3), (['▁', 'h', 'i'], -4)]

def exampleUnigramModel : List (Str × Val) :=
  [("type".toList, .str "Unigram".toList), ("unk_id".toList, .float 0), ("vocab".toList, scoresVal exampleUnigramVocab)]

def exampleMetaspace : List (Str × Val) :=
  [("type".toList, .str "Metaspace".toList), ("replacement".toList, .str ['▁']), ("add_prefix_space".toList, .bool true)]

def exampleEos : List (Str × Val) :=
  [("type".toList, .str "TemplateProcessing".toList),
   ("single".toList, .arr ((surround [] [(['<', '/', 's', '>'], 1)] 0).map pieceVal)), ("pair".toList, .arr []),
   ("special_tokens".toList, .obj ([⟨['<', '/', 's', '>'], [1], [['<', '/', 's', '>']]⟩].map tokenVal))]

def exampleUnigramFile : FileConfig where
  model := some exampleUnigramModel
  preTokenizer := some exampleMetaspace
  decoder := some exampleMetaspace
  postProcessor := some exampleEos
  addedTokens := [{ id := 1, content := ['<', '/', 's', '>'], special := true }]

theorem exampleUnigram_section (d : List (Str × Val)) : UnigramSection exampleUnigramModel d exampleUnigramVocab (some 0) where
  type := .given "Unigram" (by rfl)
  vocab := by rfl
  unkId := by
    unfold IsOpt
    rfl
  within := by
    rintro i ⟨⟩
    decide
  fallback := .inl (by unfold IsOpt; rfl)
  fuse := ⟨none, by unfold IsOpt; rfl⟩
  names := by decide +kernel

example (E : FileEnv) (ho : ∀ l, (E.order l).Perm l) (hr : E.engine ['▁'] = classEngine (fun c => c == '▁')) :
    ∃ (b : Built) (e : Encoding) (ts : List Str),
      fromReader E (some exampleUnigramFile) = .ok b ∧
      b.tok.encodeSingle (encStr ['h', 'i', '\n', 'h', 'i']) [true] = .ok (some e) ∧
      ts.flatten = ['▁', 'h', 'i', '▁', 'h', 'i'] ∧ e.tokens = ts ++ [['<', '/', 's', '>']] ∧
      b.decode e.ids true = .ok (encStr ['h', 'i', ' ', 'h', 'i']) := by
  obtain ⟨b, e, ts, h1, h2, h3, _, h5, _, h7⟩ := C130_unigram_partial E ho
    exampleUnigramFile
    exampleUnigramModel exampleMetaspace exampleMetaspace exampleUnigramVocab (some 0) rfl (exampleUnigram_section _)
    '▁' hr .always true rfl rfl
    (.metaspace _ ['▁'] true (by unfold TypeIs; rfl) (by rfl) (by rfl) (.inl (by rfl))) rfl
    (.metaspace _ ['▁'] true (by unfold TypeIs; rfl) (by rfl) (.inl (by rfl))) rfl rfl rfl
    [] [(['<', '/', 's', '>'], 1)]
    (.inr ⟨exampleEos, rfl, .one _ _ _ (.template _ _ _ 0 [] [⟨['<', '/', 's', '>'], [1], [['<', '/', 's', '>']]⟩]
      (by unfold TypeIs; rfl) (by rfl) (by rfl) (by rfl) (by decide) (by simp))⟩)
    (by
      intro x hx
      simp only [List.nil_append, List.mem_singleton] at hx
      subst hx
      exact ⟨⟨1, 0, rfl, rfl⟩, _, List.mem_singleton.mpr rfl, rfl, rfl⟩)
    ['h', 'i', '\n', 'h', 'i'] (by decide) (by decide)
    (by
      intro x hx
      rw [exampleUnigramFile, List.mem_singleton] at hx
      subst hx
      decide +kernel)
    (by
      have : metaText '▁' true ['h', 'i', '\n', 'h', 'i'] = ['▁', 'h', 'i', '▁', 'h', 'i'] := by decide +kernel
      rw [this]
      intro ch hch
      simp only [List.mem_cons, List.not_mem_nil, or_false] at hch
      rcases hch with rfl | rfl | rfl | rfl | rfl | rfl
      · exact ⟨2, 2, -2, rfl, rfl⟩
      · exact ⟨3, 3, -3, rfl, rfl⟩
      · exact ⟨4, 4, -3, rfl, rfl⟩
      · exact ⟨2, 2, -2, rfl, rfl⟩
      · exact ⟨3, 3, -3, rfl, rfl⟩
      · exact ⟨4, 4, -3, rfl, rfl⟩)
    (by
      rintro i t ⟨⟩ ⟨k, x, hk, hv⟩
      have : k = 0 := by omega
      subst this
      obtain ⟨rfl, -⟩ := Prod.mk.inj (Option.some.inj hv)
      decide +kernel)
  refine ⟨b, e, ts, h1, h2, ?_, ?_, ?_⟩
  · rw [h3]; decide +kernel
  · rw [h5]; rfl
  · rw [h7]
    exact congrArg (fun x => Res.ok (encStr x)) (by decide +kernel)

end Tok.Whole
