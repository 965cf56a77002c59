import Verif.PreTok.PropsOriginBert
import Verif.PreTok.ByteRows

/-!
# C144: a text that a normalizer changes in place is encoded as what it becomes
-/

namespace Tok.PreTok

open Tok.Norm

/-! ### Specification -/

/-- The normalizer makes `u` of the text `s` in place: every byte of `u` is where the character with this byte is, as in a text
that was not changed. -/
def Folds (t : Tk) (s u : Str) : Prop :=
  ∃ f, t.normalizer = some f ∧ ∀ x, FPart s [] s x → ∃ n, f x = .ok n ∧ Same n u ∧ n.shift = x.shift

/-! ### Lemmas -/

/-- The two normalized strings differ at most in the original text, which has the same length. -/
structure Like (x y : NStr) : Prop where
  text : x.normalized = y.normalized
  aligns : x.aligns = y.aligns
  alignsO : x.alignsO = y.alignsO
  shift : x.shift = y.shift
  lenO : x.original.length = y.original.length

/-- Two outcomes with related values. -/
inductive RelRes (R : α → β → Prop) : Res α → Res β → Prop
  | ok (a : α) (b : β) : R a b → RelRes R (.ok a) (.ok b)
  | err : RelRes R .err .err
  | panic : RelRes R .panic .panic

/-- Two lists with related elements. -/
inductive RelList (R : α → β → Prop) : List α → List β → Prop
  | nil : RelList R [] []
  | cons (a : α) (b : β) (as : List α) (bs : List β) : R a b → RelList R as bs → RelList R (a :: as) (b :: bs)

/-- Two pointers with related values. -/
inductive RelOpt (R : α → β → Prop) : Option α → Option β → Prop
  | none : RelOpt R none none
  | some (a : α) (b : β) : R a b → RelOpt R (some a) (some b)

theorem RelRes.bind {R : α → β → Prop} {S : γ → δ → Prop} {m : Res α} {m' : Res β} {f : α → Res γ} {f' : β → Res δ}
    (h : RelRes R m m') (hf : ∀ a b, R a b → RelRes S (f a) (f' b)) : RelRes S (m >>= f) (m' >>= f') := by
  cases h with
  | ok a b h => exact hf a b h
  | err => exact .err
  | panic => exact .panic

theorem RelRes.refl (m : Res α) : RelRes Eq m m := by
  cases m with
  | ok a => exact .ok a a rfl
  | err => exact .err
  | panic => exact .panic

theorem RelRes.eq {m m' : Res α} (h : RelRes Eq m m') : m = m' := by
  cases h with
  | ok a b h => rw [h]
  | err => rfl
  | panic => rfl

theorem RelList.append {R : α → β → Prop} {as as' : List α} {bs bs' : List β} (h : RelList R as bs) (h' : RelList R as' bs') :
    RelList R (as ++ as') (bs ++ bs') := by
  induction h with
  | nil => exact h'
  | cons a b as bs r _ ih => exact .cons a b _ _ r ih

theorem RelList.map {R : α → β → Prop} {S : γ → δ → Prop} {f : α → γ} {g : β → δ} (hf : ∀ a b, R a b → S (f a) (g b))
    {as : List α} {bs : List β} (h : RelList R as bs) : RelList S (as.map f) (bs.map g) := by
  induction h with
  | nil => exact .nil
  | cons a b as bs r _ ih => exact .cons _ _ _ _ (hf a b r) ih

theorem slc_lengths {l : List α} {l' : List β} (h : l.length = l'.length) (a b : Int) :
    RelRes (fun x y => x.length = y.length) (slc l a b) (slc l' a b) := by
  unfold slc
  rw [h]
  split
  · exact .ok _ _ (by simp [h])
  · exact .panic

theorem convert_like {x y : NStr} (h : Like x y) (r : Rng) (hr : r.on = .normalized) : x.convert r = y.convert r := by
  unfold NStr.convert
  rw [hr]
  simp only [h.text, h.aligns]

theorem slice_like {x y : NStr} (h : Like x y) (a b : Int) :
    RelRes (RelOpt Like) (x.slice ⟨a, b, .normalized⟩) (y.slice ⟨a, b, .normalized⟩) := by
  unfold NStr.slice
  have hv : x.validate ⟨a, b, .normalized⟩ = y.validate ⟨a, b, .normalized⟩ := by
    unfold NStr.validate
    simp only [h.text]
  rw [hv]
  cases hc : y.validate ⟨a, b, .normalized⟩ with
  | err => exact .err
  | panic => exact .panic
  | ok o =>
    cases o with
    | none => exact .ok _ _ .none
    | some full =>
      have hon : full.on = .normalized := by
        unfold NStr.validate at hc
        simp only at hc
        split at hc
        · cases hc
        · split at hc
          · cases hc; rfl
          · obtain ⟨ok1, _, hc⟩ := Res.bind_eq_ok.mp hc
            split at hc
            · cases hc
            · obtain ⟨ok2, _, hc⟩ := Res.bind_eq_ok.mp hc
              split at hc <;> cases hc
              rfl
      simp only [Res.bind_ok]
      rw [convert_like h full hon]
      refine RelRes.bind (RelRes.refl _) ?_
      rintro conv _ rfl
      cases conv with
      | none => exact .panic
      | some conv =>
        simp only [hon, h.alignsO]
        refine RelRes.bind (RelRes.refl _) ?_
        rintro pre _ rfl
        have ho : RelRes (fun p q => p.length = q.length) (x.rangeOriginal full) (y.rangeOriginal full) := by
          unfold NStr.rangeOriginal
          simp only [hon]
          rw [convert_like h full hon]
          refine RelRes.bind (RelRes.refl _) ?_
          rintro o _ rfl
          cases o with
          | none => exact .panic
          | some p => exact slc_lengths h.lenO _ _
        refine RelRes.bind ho ?_
        intro p q hpq
        have hr : x.range full = y.range full := by
          unfold NStr.range
          simp only [hon, h.text]
        rw [hr, h.aligns]
        refine RelRes.bind (RelRes.refl _) ?_
        rintro w _ rfl
        refine RelRes.bind (RelRes.refl _) ?_
        rintro al _ rfl
        refine RelRes.bind (RelRes.refl _) ?_
        rintro alO _ rfl
        exact .ok _ _ (.some _ _ ⟨rfl, rfl, rfl, by simp only [h.shift], hpq⟩)

theorem splitAt_like {x y : NStr} (h : Like x y) (ps : List (Nat × Nat)) :
    RelRes (RelList Like) (x.splitAt ps) (y.splitAt ps) := by
  induction ps with
  | nil => exact .ok _ _ .nil
  | cons p ps ih =>
    rw [NStr.splitAt, NStr.splitAt]
    refine RelRes.bind (slice_like h _ _) ?_
    intro a b hab
    refine RelRes.bind ih ?_
    intro as bs hs
    cases hab with
    | none => exact .ok _ _ hs
    | some a b r => exact .ok _ _ (.cons _ _ _ _ r hs)

theorem split_like {x y : NStr} (h : Like x y) (p : Pat) (b : Behavior) : RelRes (RelList Like) (x.split p b) (y.split p b) := by
  unfold NStr.split
  rw [h.text]
  refine RelRes.bind (RelRes.refl _) ?_
  rintro ms _ rfl
  exact splitAt_like h _

/-- The pieces are alike, with the same tokens. -/
def LikeIdx (a b : SplitIdx) : Prop := RelOpt Like a.normalized b.normalized ∧ a.tokens = b.tokens

/-- The splits are alike, with the same tokens. -/
def LikeSplit (a b : Split) : Prop := Like a.normalized b.normalized ∧ a.tokens = b.tokens

theorem untokened_like {xs ys : List NStr} (h : RelList Like xs ys) :
    RelList LikeIdx (xs.map (fun x => ⟨some x, none⟩)) (ys.map (fun x => ⟨some x, none⟩)) :=
  h.map (fun _ _ r => ⟨.some _ _ r, rfl⟩)

theorem cutWith_like {x y : NStr} (h : Like x y) (p : Pat) (b : Behavior) :
    RelRes (RelList LikeIdx) (cutWith p b x) (cutWith p b y) := by
  unfold cutWith
  refine RelRes.bind (split_like h p b) ?_
  intro xs ys hs
  exact .ok _ _ (untokened_like hs)

theorem bertInner_like (isPunc : Char → Bool) {xs ys : List NStr} (h : RelList Like xs ys) :
    RelRes (RelList Like) (bertInner isPunc xs) (bertInner isPunc ys) := by
  induction h with
  | nil => exact .ok _ _ .nil
  | cons x y xs ys r _ ih =>
    rw [bertInner, bertInner]
    refine RelRes.bind (split_like r _ _) ?_
    intro as bs hs
    refine RelRes.bind ih ?_
    intro as' bs' hs'
    exact .ok _ _ (hs.append hs')

theorem bertCut_like (engine : List UInt8 → List (Nat × Nat)) (isPunc : Char → Bool) {x y : NStr} (h : Like x y) :
    RelRes (RelList LikeIdx) (bertCut engine isPunc x) (bertCut engine isPunc y) := by
  unfold bertCut
  refine RelRes.bind (split_like h _ _) ?_
  intro as bs hs
  refine RelRes.bind (bertInner_like isPunc hs) ?_
  intro xs ys hs
  exact .ok _ _ (untokened_like hs)

theorem sliceWindows_like {x y : NStr} (h : Like x y) (qs : List Nat) :
    RelRes (RelList Like) (sliceWindows x qs) (sliceWindows y qs) := by
  induction qs with
  | nil => simp only [sliceWindows]; exact .ok _ _ .nil
  | cons a qs ih =>
    cases qs with
    | nil => simp only [sliceWindows]; exact .ok _ _ .nil
    | cons b qs =>
      rw [sliceWindows, sliceWindows]
      refine RelRes.bind (slice_like h _ _) ?_
      intro p q hpq
      cases hpq with
      | none => exact .panic
      | some p q r =>
        refine RelRes.bind ih ?_
        intro as bs hs
        exact .ok _ _ (.cons _ _ _ _ r hs)

theorem scriptCut_like (script : Char → String) {x y : NStr} (h : Like x y) :
    RelRes (RelList LikeIdx) (scriptCut script x) (scriptCut script y) := by
  unfold scriptCut
  rw [h.text]
  refine RelRes.bind (sliceWindows_like h _) ?_
  intro xs ys hs
  exact .ok _ _ (untokened_like hs)

theorem keepPieces_like {ps qs : List SplitIdx} (h : RelList LikeIdx ps qs) :
    RelRes (RelList LikeSplit) (keepPieces ps) (keepPieces qs) := by
  induction h with
  | nil => exact .ok _ _ .nil
  | cons p q ps qs r _ ih =>
    obtain ⟨pn, pt⟩ := p
    obtain ⟨qn, qt⟩ := q
    obtain ⟨r1, r2⟩ := r
    simp only at r1 r2
    subst r2
    cases r1 with
    | none => exact .panic
    | some a b r =>
      simp only [keepPieces]
      refine RelRes.bind ih ?_
      intro as bs hs
      rw [r.text]
      split
      · exact .ok _ _ hs
      · exact .ok _ _ (.cons _ _ _ _ ⟨r, rfl⟩ hs)

theorem splitLoop_like {fn gn : Nat → NStr → Res (List SplitIdx)}
    (hf : ∀ i x y, Like x y → RelRes (RelList LikeIdx) (fn i x) (gn i y)) {as bs : List Split} (h : RelList LikeSplit as bs) :
    ∀ i, RelRes (RelList LikeSplit) (splitLoop fn as i) (splitLoop gn bs i) := by
  induction h with
  | nil => intro i; exact .ok _ _ .nil
  | cons a b as bs r _ ih =>
    intro i
    obtain ⟨an, at'⟩ := a
    obtain ⟨bn, bt⟩ := b
    obtain ⟨r1, r2⟩ := r
    simp only at r1 r2
    subst r2
    cases at' with
    | some ts =>
      simp only [splitLoop]
      refine RelRes.bind (ih _) ?_
      intro as bs hs
      exact .ok _ _ (.cons _ _ _ _ ⟨r1, rfl⟩ hs)
    | none =>
      simp only [splitLoop]
      refine RelRes.bind (hf i _ _ r1) ?_
      intro ps qs hp
      refine RelRes.bind (keepPieces_like hp) ?_
      intro ks ls hk
      refine RelRes.bind (ih _) ?_
      intro as bs hs
      exact .ok _ _ (hk.append hs)

/-- The splits of the two are alike. -/
def LikePts (p q : PTS) : Prop := RelList LikeSplit p.splits q.splits

theorem ptsSplit_like {fn gn : Nat → NStr → Res (List SplitIdx)}
    (hf : ∀ i x y, Like x y → RelRes (RelList LikeIdx) (fn i x) (gn i y)) {p q : PTS} (h : LikePts p q) :
    RelRes LikePts (p.split fn) (q.split gn) := by
  unfold PTS.split
  refine RelRes.bind (splitLoop_like hf h 0) ?_
  intro as bs hs
  exact .ok _ _ hs

theorem libPre_like {p : PTS → Res PTS} (hp : LibPre true p) : ∀ {a b : PTS}, LikePts a b → RelRes LikePts (p a) (p b) := by
  generalize ho : true = o at hp
  induction hp with
  | delimiter o d => intro a b h; exact ptsSplit_like (fun _ x y r => cutWith_like r _ _) h
  | digits o f i => intro a b h; exact ptsSplit_like (fun _ x y r => cutWith_like r _ _) h
  | punctuation o f b => intro a b h; exact ptsSplit_like (fun _ x y r => cutWith_like r _ _) h
  | split o pat b i => intro a b h; exact ptsSplit_like (fun _ x y r => cutWith_like r _ _) h
  | whitespace o e => intro a b h; exact ptsSplit_like (fun _ x y r => cutWith_like r _ _) h
  | whitespaceSplit o f => intro a b h; exact ptsSplit_like (fun _ x y r => cutWith_like r _ _) h
  | bert o e f => intro a b h; exact ptsSplit_like (fun _ x y r => bertCut_like e f r) h
  | script o f => intro a b h; exact ptsSplit_like (fun _ x y r => scriptCut_like f r) h
  | metaspace => cases ho
  | byteLevel => cases ho
  | sequence o ps _ ih =>
    subst ho
    induction ps with
    | nil => intro a b h; exact .ok _ _ h
    | cons f fs ih' =>
      intro a b h
      simp only [sequencePre]
      refine RelRes.bind (ih f (by simp) rfl h) ?_
      intro a' b' h'
      exact ih' (fun q hq => by apply_assumption; simp [hq]) (fun q hq => ih q (by simp [hq])) h'

theorem tokenizeLoop_like (f : List UInt8 → Res (Option (List Token))) {as bs : List Split} (h : RelList LikeSplit as bs) :
    RelRes (RelList LikeSplit) (tokenizeLoop (fun n => f n.normalized) as) (tokenizeLoop (fun n => f n.normalized) bs) := by
  induction h with
  | nil => exact .ok _ _ .nil
  | cons a b as bs r _ ih =>
    obtain ⟨an, at'⟩ := a
    obtain ⟨bn, bt⟩ := b
    obtain ⟨r1, r2⟩ := r
    simp only at r1 r2
    subst r2
    cases at' with
    | some ts =>
      simp only [tokenizeLoop]
      refine RelRes.bind ih ?_
      intro as bs hs
      exact .ok _ _ (.cons _ _ _ _ ⟨r1, rfl⟩ hs)
    | none =>
      simp only [tokenizeLoop, r1.text]
      refine RelRes.bind (RelRes.refl _) ?_
      rintro ts _ rfl
      refine RelRes.bind ih ?_
      intro as bs hs
      exact .ok _ _ (.cons _ _ _ _ ⟨r1, rfl⟩ hs)

theorem rowsOfTokens_like (m : List (Int × Nat)) {x y : NStr} (h : Like x y) (word : Int) (ts : List Token) :
    rowsOfTokens m x word ts = rowsOfTokens m y word ts := by
  induction ts with
  | nil => rfl
  | cons t ts ih =>
    have ho : origOffsets x t.offsets = origOffsets y t.offsets := by
      unfold origOffsets
      rw [convert_like h _ rfl, h.shift]
    rw [rowsOfTokens, rowsOfTokens, ho, ih]

theorem rowsOfSplits_like (m : List (Int × Nat)) (word : Int) {as bs : List Split} (h : RelList LikeSplit as bs) :
    ∀ i, rowsOfSplits m word as i = rowsOfSplits m word bs i := by
  induction h with
  | nil => intro i; rfl
  | cons a b as bs r _ ih => intro i; rw [rowsOfSplits, rowsOfSplits, rowsOfTokens_like m r.1, r.2, ih]

theorem intoEncoding_like {p q : PTS} (h : LikePts p q) (typeId word : Int) :
    p.intoEncoding typeId word .byte = q.intoEncoding typeId word .byte := by
  obtain ⟨po, ps⟩ := p
  obtain ⟨qo, qs⟩ := q
  unfold LikePts at h
  simp only at h
  have he : (ps = []) = (qs = []) := by cases h <;> simp
  have ha : ∀ {ps qs : List Split}, RelList LikeSplit ps qs → ps.any (fun s => (s.tokens.getD []).isEmpty) =
      qs.any (fun s => (s.tokens.getD []).isEmpty) := by
    intro ps qs h
    induction h with
    | nil => rfl
    | cons a b as bs r _ ih => rw [List.any_cons, List.any_cons, ih, r.2]
  unfold PTS.intoEncoding
  simp only [he, ha h, charMap, rowsOfSplits_like [] word h]

theorem doTokenize_like (t : Tk) {p q : PTS} (h : LikePts p q) (typeId word : Int) :
    t.doTokenize p typeId word .byte = t.doTokenize q typeId word .byte := by
  unfold Tk.doTokenize PTS.tokenize
  apply RelRes.eq
  cases t.model with
  | none =>
    have := tokenizeLoop_like (fun _ => .err) h
    refine RelRes.bind (R := LikePts) (RelRes.bind this (fun as bs hs => .ok _ _ hs)) ?_
    intro a b hab
    rw [intoEncoding_like hab]
    exact RelRes.refl _
  | some f =>
    have := tokenizeLoop_like f h
    refine RelRes.bind (R := LikePts) (RelRes.bind this (fun as bs hs => .ok _ _ hs)) ?_
    intro a b hab
    rw [intoEncoding_like hab]
    exact RelRes.refl _

theorem splitNone_like {re re' : MatchingSet} {x y : NStr} (h : Like x y) (h1 : re.engine x.normalized = [])
    (h2 : re'.engine y.normalized = []) :
    RelRes (RelList LikeIdx) (splitWithIndices re x) (splitWithIndices re' y) := by
  unfold splitWithIndices
  rw [h1, h2, h.text]
  have hf : ∀ ids, findMatches ids y.normalized.length [] = findMatches [] y.normalized.length [] := by
    intro ids
    unfold findMatches
    split
    · rfl
    · simp [selectMatches, fillGaps]
  rw [hf re.ids, hf re'.ids]
  cases findMatches [] y.normalized.length [] with
  | err => exact .err
  | panic => exact .panic
  | ok ps =>
    simp only [Res.bind_ok]
    induction ps with
    | nil => exact .ok _ _ .nil
    | cons p ps ih =>
      rw [sliceMatches, sliceMatches]
      refine RelRes.bind (slice_like h _ _) ?_
      intro a b hab
      split
      · refine RelRes.bind ih ?_
        intro as bs hs
        exact .ok _ _ (.cons _ _ _ _ ⟨hab, rfl⟩ hs)
      · cases hab with
        | none => exact .panic
        | some a b r =>
          refine RelRes.bind ih ?_
          intro as bs hs
          exact .ok _ _ (.cons _ _ _ _ ⟨.some _ _ r, by simp only [r.text]⟩ hs)

/-! ### C144 -/

/-- **C144.** If the normalizer makes `u` of the text in place and no added token is found, encoding the text gives what encoding
`u` gives without the normalizer: the same ids, tokens, offsets and words, or the same failure. -/
theorem C144_folded_partial (t t' : Tk) (s u : Str) (hs : s ≠ []) (hu : u ≠ [])
    (hf : Folds t s u) (h1 : t.splitRe.engine (encStr s) = []) (h2 : t.splitNormalizedRe.engine (encStr u) = [])
    (hn : t'.normalizer = none) (h3 : NoAdded t' u) (hp : t'.preTokenizer = t.preTokenizer) (hm : t'.model = t.model)
    (hl : ∀ p, t.preTokenizer = some p → LibPre true p) (typeId : Int) :
    t.encodeSingle (.raw (encStr s)) typeId .byte = t'.encodeSingle (.raw (encStr u)) typeId .byte := by
  obtain ⟨f, hf, hfold⟩ := hf
  obtain ⟨x, k1, k2⟩ := split_none h1 hs (fpart_whole s)
  obtain ⟨y, l1, l2⟩ := split_none h3.1 hu (fpart_whole u)
  obtain ⟨n, e1, e2, e3⟩ := hfold x k2
  have hx : x.normalized ≠ [] := by rw [fpart_text k2]; exact enc_ne hs
  have hy : y.normalized ≠ [] := by rw [fpart_text l2]; exact enc_ne hu
  have hlike : Like n y := by
    obtain ⟨_, g1, g2⟩ := l2
    obtain ⟨_, _, g3⟩ := k2
    refine ⟨by rw [e2.text, g1.text], by rw [e2.aligns, g1.aligns], by rw [e2.alignsO, g1.alignsO], by rw [e3, g2, g3],
      by rw [e2.lenO, g1.original, length_encStr]⟩
  have hex : RelRes LikePts (t.extractAndNormalize (encStr s)) (t'.extractAndNormalize (encStr u)) := by
    have a1 : (newPTS (encStr s)).split (fun _ n => splitWithIndices t.splitRe n) = .ok ⟨encStr s, [⟨x, none⟩]⟩ := by
      simp [PTS.split, newPTS, splitLoop, k1, keepPieces, hx]
    have a2 : (newPTS (encStr u)).split (fun _ n => splitWithIndices t'.splitRe n) = .ok ⟨encStr u, [⟨y, none⟩]⟩ := by
      simp [PTS.split, newPTS, splitLoop, l1, keepPieces, hy]
    unfold Tk.extractAndNormalize
    rw [a1, a2]
    simp only [Res.bind_ok, PTS.split, splitLoop, Tk.normalizeOrDie, hf, hn, e1]
    have hsp := splitNone_like (re := t.splitNormalizedRe) (re' := t'.splitNormalizedRe) hlike (by rw [e2.text]; exact h2)
      (by rw [fpart_text l2]; exact h3.2)
    refine RelRes.bind (R := RelList LikeSplit) (RelRes.bind hsp (fun ps qs hpq => RelRes.bind (keepPieces_like hpq) ?_)) ?_
    · intro as bs hab
      exact .ok _ _ (hab.append .nil)
    · intro as bs hab
      exact .ok _ _ hab
  have hone : t.encodeOne (encStr s) typeId (-1) .byte = t'.encodeOne (encStr u) typeId (-1) .byte := by
    unfold Tk.encodeOne
    apply RelRes.eq
    refine RelRes.bind hex ?_
    intro p q hpq
    have hpre : RelRes LikePts (t.doPreTokenize p) (t'.doPreTokenize q) := by
      unfold Tk.doPreTokenize
      rw [hp]
      cases hq : t.preTokenizer with
      | none => exact .ok _ _ hpq
      | some pr => exact libPre_like (hl pr hq) hpq
    refine RelRes.bind hpre ?_
    intro p q hpq
    have : t'.doTokenize q typeId (-1) .byte = t.doTokenize q typeId (-1) .byte := by
      unfold Tk.doTokenize
      rw [hm]
    rw [this, doTokenize_like t hpq]
    exact RelRes.refl _
  unfold Tk.encodeSingle
  simp only [hone]

theorem fresh_like {x : NStr} {s : Str} (h : Fresh x s) : Same x s ∧ x.original = encStr s :=
  ⟨⟨h.text, by rw [h.original, length_encStr], h.aligns, h.alignsO⟩, h.original⟩

/-- C144 (change of case): a normalizer that replaces every character by one with as many bytes changes the text in place. -/
theorem C144_recase (t : Tk) (s u : Str) (f : List UInt8 → List UInt8) (ht : t.normalizer = some (fun n => .ok (n.recase f)))
    (hf : f (encStr s) = encStr u) (hsize : u.map Char.utf8Size = s.map Char.utf8Size) : Folds t s u := by
  refine ⟨_, ht, fun x hx => ⟨_, rfl, ?_, rfl⟩⟩
  exact (fresh_like hx.2.1).1.recase hf hsize

/-- C144 (BERT): so does the normalizer of BERT, if the text has nothing to remove and no ideographs and lower case keeps the
sizes. -/
theorem C144_bert_normalizer (t : Tk) (b : Bert) (T : Tables) (s u : Str) (ht : t.normalizer = some (b.normalize T))
    (h1 : ∀ c ∈ s, ¬ Unwanted T.ctl c) (h2 : ∀ c ∈ s, ¬ Cjk c) (hc : b.lowercase = false → u = s)
    (hl : b.lowercase = true → T.lower (encStr s) = encStr u ∧ u.map Char.utf8Size = s.map Char.utf8Size)
    (h3 : ∀ c ∈ u, T.mn c = false ∧ c ≠ '\x00') : Folds t s u := by
  refine ⟨_, ht, fun x hx => ?_⟩
  obtain ⟨g1, g2⟩ := fresh_like hx.2.1
  have hu : (if b.lowercase = true then u else s) = u := by
    cases hb : b.lowercase with
    | true => rfl
    | false => exact (hc hb).symm
  obtain ⟨n, e1, e2, _⟩ := bert_same b T g1 g2 (ds := u) h1 h2 hl (by rw [hu]; exact h3)
  rw [hu] at e2
  exact ⟨n, e1, e2, bert_shift e1⟩

/-- "É Éb" is encoded as "é éb". -/
example : bertTk.encodeSingle (.raw (encStr ['É', ' ', 'É', 'b'])) 0 .byte =
    Tk.encodeSingle { bertTk with normalizer := none } (.raw (encStr ['é', ' ', 'é', 'b'])) 0 .byte :=
  C144_folded_partial bertTk { bertTk with normalizer := none } ['É', ' ', 'É', 'b'] ['é', ' ', 'é', 'b'] (by simp) (by simp)
    (C144_bert_normalizer bertTk (Bert.mk true true true true) bertTables _ _ rfl (by decide) (by decide) nofun
      (fun _ => ⟨by decide +kernel, by decide +kernel⟩) (by decide))
    rfl rfl rfl ⟨rfl, rfl⟩ rfl rfl (fun p hp => by cases hp; exact .delimiter _ _) 0

end Tok.PreTok
