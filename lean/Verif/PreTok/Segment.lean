import Verif.PreTok.PropsInside

/-!
# Properties of pieces that slices keep
-/

namespace Tok.PreTok

open Tok.Norm

/-- What `Slice` gives for a range of the normalized text: nothing, or its bytes with their alignments. -/
theorem slice_bytes {n : NStr} {a b : Int} {x : NStr} (h : n.slice ⟨a, b, .normalized⟩ = .ok (some x)) :
    x.normalized = [] ∨ ∃ (i j : Nat) (d : Int), i < j ∧ j ≤ n.normalized.length ∧ j ≤ n.aligns.length ∧
      x.normalized = (n.normalized.take j).drop i ∧
      x.aligns = ((n.aligns.take j).drop i).map (fun p => (p.1 - d, p.2 - d)) ∧ x.shift = n.shift + d := by
  unfold NStr.slice at h
  obtain ⟨full, hv, h⟩ := Res.bind_eq_ok.mp h
  cases full with
  | none => cases h
  | some full =>
    have hf : full = (⟨a, b, .normalized⟩ : Rng).full n.normalized.length ∧ 0 ≤ full.start ∧
        full.stop ≤ n.normalized.length := by
      unfold NStr.validate at hv
      simp only at hv
      split at hv
      · cases hv
      · next hr =>
        split at hv
        · cases hv; exact ⟨rfl, by omega, by omega⟩
        · obtain ⟨b1, _, hv⟩ := Res.bind_eq_ok.mp hv
          split at hv
          · cases hv
          · obtain ⟨b2, _, hv⟩ := Res.bind_eq_ok.mp hv
            split at hv
            · cases hv
            · cases hv; exact ⟨rfl, by omega, by omega⟩
    obtain ⟨hfe, h0, hle⟩ := hf
    have hon : full.on = .normalized := by rw [hfe]; rfl
    clear hfe hv
    obtain ⟨fa, fb, fon⟩ := full
    simp only at hon h0 hle
    subst hon
    simp only at h
    obtain ⟨conv, hc, h⟩ := Res.bind_eq_ok.mp h
    cases conv with
    | none => cases h
    | some conv =>
      simp only at h
      obtain ⟨pre, _, h⟩ := Res.bind_eq_ok.mp h
      obtain ⟨so, _, h⟩ := Res.bind_eq_ok.mp h
      obtain ⟨sn, hsn, h⟩ := Res.bind_eq_ok.mp h
      obtain ⟨al, hal, h⟩ := Res.bind_eq_ok.mp h
      obtain ⟨alO, _, h⟩ := Res.bind_eq_ok.mp h
      simp only [Res.ok.injEq, Option.some.injEq] at h
      subst h
      have hff : (⟨fa, fb, .normalized⟩ : Rng).full n.normalized.length = ⟨fa, fb, .normalized⟩ := by
        unfold Rng.full
        simp only [Rng.mk.injEq, and_true]
        exact ⟨by rw [if_neg (by omega)], by rw [if_neg (by omega)]⟩
      simp only [NStr.range, hff] at hsn
      have hl := slc_length hsn
      obtain ⟨_, k1, _, rfl⟩ := slc_eq_ok hsn
      obtain ⟨_, _, k2, rfl⟩ := slc_eq_ok hal
      by_cases hab : fa = fb
      · left
        simp only
        exact List.length_eq_zero_iff.mp (by omega)
      · right
        exact ⟨fa.toNat, fb.toNat, conv.start, by omega, by omega, by omega, rfl, rfl, rfl⟩

/-- Slices of pieces with `P` have it, unless they are empty. -/
def Closed (P : NStr → Prop) : Prop :=
  ∀ n a b x, P n → n.slice ⟨a, b, .normalized⟩ = .ok (some x) → x.normalized = [] ∨ P x

/-- Without tokens the piece has `P`; its tokens have `Q`. -/
structure Has (P : NStr → Prop) (Q : NStr → Token → Prop) (sp : Split) : Prop where
  piece : sp.tokens = none → P sp.normalized
  tokens : ∀ ts, sp.tokens = some ts → ∀ t ∈ ts, Q sp.normalized t

/-- The same for what a closure gives to `Split`, unless it is empty. -/
def HasPiece (P : NStr → Prop) (Q : NStr → Token → Prop) (p : SplitIdx) : Prop :=
  ∀ y, p.normalized = some y → y.normalized ≠ [] → Has P Q ⟨y, p.tokens⟩

variable {P : NStr → Prop} {Q : NStr → Token → Prop}

theorem splitAt_closed (hP : Closed P) {n : NStr} (hn : n.normalized = [] ∨ P n) (ps : List (Nat × Nat)) :
    ∀ {xs : List NStr}, n.splitAt ps = .ok xs → ∀ x ∈ xs, x.normalized = [] ∨ P x := by
  induction ps with
  | nil => intro xs h; cases h; simp
  | cons p ps ih =>
    intro xs h
    rw [NStr.splitAt] at h
    obtain ⟨piece, h1, h⟩ := Res.bind_eq_ok.mp h
    obtain ⟨rest, h2, h⟩ := Res.bind_eq_ok.mp h
    cases piece with
    | none => cases h; exact ih h2
    | some y =>
      cases h
      intro x hx'
      rcases List.mem_cons.mp hx' with rfl | hx'
      · rcases hn with h0 | h0
        · exact .inl (slice_nil h0 h1)
        · exact hP _ _ _ _ h0 h1
      · exact ih h2 x hx'

theorem split_closed (hP : Closed P) {n : NStr} (hn : n.normalized = [] ∨ P n) {pat : Pat}
    {b : Behavior} {xs : List NStr} (h : n.split pat b = .ok xs) : ∀ x ∈ xs, x.normalized = [] ∨ P x := by
  unfold NStr.split at h
  obtain ⟨ms, _, h⟩ := Res.bind_eq_ok.mp h
  exact splitAt_closed hP hn _ h

theorem keepPieces_has {ps : List SplitIdx} (hp : ∀ p ∈ ps, HasPiece P Q p)
    {kept : List Split} (h : keepPieces ps = .ok kept) : ∀ sp ∈ kept, Has P Q sp := by
  induction ps generalizing kept with
  | nil => cases h; simp
  | cons p ps ih =>
    rw [keepPieces] at h
    split at h
    · cases h
    · next y hy =>
      obtain ⟨rest, h1, h⟩ := Res.bind_eq_ok.mp h
      cases h
      have hr := ih (fun q hq => hp q (by simp [hq])) h1
      split
      · exact hr
      · next hne =>
        intro sp hsp
        rcases List.mem_cons.mp hsp with rfl | hsp
        · exact hp p (by simp) y hy hne
        · exact hr sp hsp

/-- One round of `Split`, from pieces with `P0` to pieces with `P`; those with tokens stay. -/
theorem splitLoop_has {P0 : NStr → Prop} {fn : Nat → NStr → Res (List SplitIdx)}
    (hfn : ∀ i x ps, P0 x → fn i x = .ok ps → ∀ p ∈ ps, HasPiece P Q p) {ss : List Split} :
    ∀ {i : Nat} {ss' : List Split}, (∀ sp ∈ ss, Has P0 Q sp) → splitLoop fn ss i = .ok ss' →
      ∀ sp ∈ ss', Has P Q sp := by
  induction ss with
  | nil => intro i ss' _ h; cases h; simp
  | cons x ss ih =>
    intro i ss' hs h
    have hrest : ∀ sp ∈ ss, Has P0 Q sp := fun sp hsp => hs sp (by simp [hsp])
    rw [splitLoop] at h
    split at h
    · next hne =>
      obtain ⟨rest, h1, h⟩ := Res.bind_eq_ok.mp h
      cases h
      intro sp hsp
      rcases List.mem_cons.mp hsp with rfl | hsp
      · have := hs sp (by simp)
        refine ⟨fun hn => ?_, this.tokens⟩
        rw [hn] at hne
        cases hne
      · exact ih hrest h1 sp hsp
    · next hne =>
      obtain ⟨ps, h1, h⟩ := Res.bind_eq_ok.mp h
      obtain ⟨kept, h2, h⟩ := Res.bind_eq_ok.mp h
      obtain ⟨rest, h3, h⟩ := Res.bind_eq_ok.mp h
      cases h
      intro sp hsp
      rcases List.mem_append.mp hsp with hsp | hsp
      · exact keepPieces_has (hfn i _ ps ((hs x (by simp)).piece (by simpa using hne)) h1) h2 sp hsp
      · exact ih hrest h3 sp hsp

theorem split_has {P0 : NStr → Prop} {fn : Nat → NStr → Res (List SplitIdx)}
    (hfn : ∀ i x ps, P0 x → fn i x = .ok ps → ∀ p ∈ ps, HasPiece P Q p) {pt pt' : PTS}
    (hs : ∀ sp ∈ pt.splits, Has P0 Q sp) (h : pt.split fn = .ok pt') : ∀ sp ∈ pt'.splits, Has P Q sp := by
  unfold PTS.split at h
  obtain ⟨ss, h1, h⟩ := Res.bind_eq_ok.mp h
  cases h
  exact splitLoop_has hfn hs h1

theorem has_untokened {xs : List NStr} (h : ∀ x ∈ xs, x.normalized = [] ∨ P x) :
    ∀ p ∈ xs.map (fun x => (⟨some x, none⟩ : SplitIdx)), HasPiece P Q p := by
  intro p hp
  simp only [List.mem_map] at hp
  obtain ⟨x, hx, rfl⟩ := hp
  intro y hy hne
  cases hy
  refine ⟨fun _ => ?_, by simp⟩
  rcases h x hx with h0 | h0
  · exact absurd h0 hne
  · exact h0

theorem cutWith_has (hP : Closed P) {pat : Pat} {b : Behavior} {n : NStr} (hn : P n)
    {ps : List SplitIdx} (h : cutWith pat b n = .ok ps) : ∀ p ∈ ps, HasPiece P Q p := by
  unfold cutWith at h
  obtain ⟨xs, h1, h⟩ := Res.bind_eq_ok.mp h
  cases h
  exact has_untokened (split_closed hP (.inr hn) h1)

/-- The token that an added token gives for a piece. -/
def AddedFor (ids : List Int) (y : NStr) (t : Token) : Prop :=
  ∃ id ∈ ids, t = ⟨id, decStr y.normalized, (0, (y.normalized.length : Nat))⟩

theorem sliceMatches_has (hP : Closed P) {n : NStr} (hn : P n) (qs : List SplitPiece)
    (hQ : ∀ q ∈ qs, q.id ≠ -1 → ∀ y : NStr, P y → Q y ⟨q.id, decStr y.normalized, (0, (y.normalized.length : Nat))⟩) :
    ∀ {ps : List SplitIdx}, sliceMatches n qs = .ok ps → ∀ p ∈ ps, HasPiece P Q p := by
  induction qs with
  | nil => intro ps h; cases h; simp
  | cons q qs ih =>
    intro ps h
    have ih := @ih (fun q hq => hQ q (by simp [hq]))
    rw [sliceMatches] at h
    obtain ⟨slice, h1, h⟩ := Res.bind_eq_ok.mp h
    split at h
    · obtain ⟨rest, h2, h⟩ := Res.bind_eq_ok.mp h
      cases h
      intro p hp
      rcases List.mem_cons.mp hp with rfl | hp
      · intro y hy hne
        simp only at hy
        subst hy
        refine ⟨fun _ => ?_, by simp⟩
        rcases hP _ _ _ _ hn h1 with h0 | h0
        · exact absurd h0 hne
        · exact h0
      · exact ih h2 p hp
    · next hid =>
      split at h
      · cases h
      · next x =>
        obtain ⟨rest, h2, h⟩ := Res.bind_eq_ok.mp h
        cases h
        intro p hp
        rcases List.mem_cons.mp hp with rfl | hp
        · intro y hy hne
          cases hy
          refine ⟨fun hc => (by cases hc), ?_⟩
          · have hy : P x := by
              rcases hP _ _ _ _ hn h1 with h0 | h0
              · exact absurd h0 hne
              · exact h0
            intro ts hts t ht
            simp only [Option.some.injEq] at hts
            subst hts
            simp only [List.mem_singleton] at ht
            subst ht
            exact hQ q (by simp) hid x hy
        · exact ih h2 p hp

theorem fillGaps_ids (ids : List Int) (len : Nat) (ms : List PatMatch) : ∀ (start : Nat) {ps : List SplitPiece},
    fillGaps ids len start ms = .ok ps → ∀ p ∈ ps, p.id ≠ -1 → p.id ∈ ids := by
  induction ms with
  | nil =>
    intro start ps h p hp hid
    rw [fillGaps] at h
    cases h
    split at hp
    · simp only [List.mem_singleton] at hp; subst hp; exact absurd rfl hid
    · cases hp
  | cons m ms ih =>
    intro start ps h p hp hid
    rw [fillGaps] at h
    obtain ⟨id, h1, h⟩ := Res.bind_eq_ok.mp h
    obtain ⟨rest, h2, h⟩ := Res.bind_eq_ok.mp h
    cases h
    rcases List.mem_append.mp hp with hp | hp
    · rcases List.mem_append.mp hp with hp | hp
      · split at hp
        · simp only [List.mem_singleton] at hp; subst hp; exact absurd rfl hid
        · cases hp
      · simp only [List.mem_singleton] at hp
        subst hp
        unfold idx at h1
        split at h1
        · cases h1
        · split at h1
          · next hx => cases h1; exact List.mem_of_getElem? hx
          · cases h1
    · exact ih _ h2 p hp hid

theorem splitWithIndices_has (hP : Closed P) {re : MatchingSet} {n : NStr} (hn : P n)
    (hQ : ∀ y t, P y → AddedFor re.ids y t → Q y t) {ps : List SplitIdx}
    (h : splitWithIndices re n = .ok ps) : ∀ p ∈ ps, HasPiece P Q p := by
  unfold splitWithIndices at h
  obtain ⟨qs, h1, h⟩ := Res.bind_eq_ok.mp h
  refine sliceMatches_has hP hn qs ?_ h
  intro q hq hid y hy
  refine hQ _ _ hy ⟨q.id, ?_, rfl⟩
  unfold findMatches at h1
  split at h1
  · cases h1; simp only [List.mem_singleton] at hq; subst hq; exact absurd rfl hid
  · exact fillGaps_ids _ _ _ _ h1 q hq hid

theorem bertInner_closed (hP : Closed P) {isPunc : Char → Bool} {ws : List NStr} :
    ∀ {xs : List NStr}, (∀ x ∈ ws, x.normalized = [] ∨ P x) → bertInner isPunc ws = .ok xs →
      ∀ x ∈ xs, x.normalized = [] ∨ P x := by
  induction ws with
  | nil => intro xs _ h; cases h; simp
  | cons w ws ih =>
    intro xs hw h
    rw [bertInner] at h
    obtain ⟨ys, h1, h⟩ := Res.bind_eq_ok.mp h
    obtain ⟨rest, h2, h⟩ := Res.bind_eq_ok.mp h
    cases h
    intro x hx
    rcases List.mem_append.mp hx with hx | hx
    · exact split_closed hP (hw w (by simp)) h1 x hx
    · exact ih (fun y hy => hw y (by simp [hy])) h2 x hx

theorem sliceWindows_closed (hP : Closed P) {n : NStr} (hn : P n) (qs : List Nat) :
    ∀ {xs : List NStr}, sliceWindows n qs = .ok xs → ∀ x ∈ xs, x.normalized = [] ∨ P x := by
  induction qs with
  | nil => intro xs h; simp only [sliceWindows] at h; cases h; simp
  | cons a qs ih =>
    intro xs h
    cases qs with
    | nil => simp only [sliceWindows] at h; cases h; simp
    | cons b qs =>
      rw [sliceWindows] at h
      obtain ⟨o1, h1, h⟩ := Res.bind_eq_ok.mp h
      split at h
      · cases h
      · obtain ⟨ys, h2, h⟩ := Res.bind_eq_ok.mp h
        cases h
        intro x hx
        rcases List.mem_cons.mp hx with rfl | hx
        · exact hP _ _ _ _ hn h1
        · exact ih h2 x hx

/-- Pre-tokenizers that only cut keep it. -/
theorem libPre_has (hP : Closed P) {p : PTS → Res PTS} (hp : LibPre true p) : ∀ {pt pt' : PTS},
    (∀ sp ∈ pt.splits, Has P Q sp) → p pt = .ok pt' → ∀ sp ∈ pt'.splits, Has P Q sp := by
  generalize ho : true = o at hp
  induction hp with
  | delimiter o d => intro pt pt' hs h; exact split_has (fun i x ps hx hc => cutWith_has hP hx hc) hs h
  | digits o f i => intro pt pt' hs h; exact split_has (fun i x ps hx hc => cutWith_has hP hx hc) hs h
  | punctuation o f b => intro pt pt' hs h; exact split_has (fun i x ps hx hc => cutWith_has hP hx hc) hs h
  | split o pat b i => intro pt pt' hs h; exact split_has (fun i x ps hx hc => cutWith_has hP hx hc) hs h
  | whitespace o e => intro pt pt' hs h; exact split_has (fun i x ps hx hc => cutWith_has hP hx hc) hs h
  | whitespaceSplit o f => intro pt pt' hs h; exact split_has (fun i x ps hx hc => cutWith_has hP hx hc) hs h
  | bert o e f =>
    intro pt pt' hs h
    refine split_has (fun i x ps hx hc => ?_) hs h
    unfold bertCut at hc
    obtain ⟨ws, h1, hc⟩ := Res.bind_eq_ok.mp hc
    obtain ⟨xs, h2, hc⟩ := Res.bind_eq_ok.mp hc
    cases hc
    exact has_untokened (bertInner_closed hP (split_closed hP (.inr hx) h1) h2)
  | script o f =>
    intro pt pt' hs h
    refine split_has (fun i x ps hx hc => ?_) hs h
    unfold scriptCut at hc
    obtain ⟨xs, h1, hc⟩ := Res.bind_eq_ok.mp hc
    cases hc
    exact has_untokened (sliceWindows_closed hP hx _ h1)
  | metaspace m => cases ho
  | byteLevel sp e => cases ho
  | sequence o ps hps ih =>
    clear hps
    induction ps with
    | nil => intro pt pt' hs h; cases h; exact hs
    | cons p ps ihp =>
      intro pt pt' hs h
      rw [sequencePre] at h
      obtain ⟨p1, h1, h⟩ := Res.bind_eq_ok.mp h
      exact ihp (fun q hq => ih q (by simp [hq])) (ih p (by simp) ho hs h1) h

theorem tokenizeLoop_has {fn : NStr → Res (Option (List Token))}
    (hfn : ∀ x ts, P x → fn x = .ok (some ts) → ∀ t ∈ ts, Q x t) {ss : List Split} :
    ∀ {ss' : List Split}, (∀ sp ∈ ss, Has P Q sp) → tokenizeLoop fn ss = .ok ss' → ∀ sp ∈ ss', Has P Q sp := by
  induction ss with
  | nil => intro ss' _ h; cases h; simp
  | cons x ss ih =>
    intro ss' hs h
    have hrest : ∀ sp ∈ ss, Has P Q sp := fun sp hsp => hs sp (by simp [hsp])
    rw [tokenizeLoop] at h
    split at h
    · obtain ⟨rest, h1, h⟩ := Res.bind_eq_ok.mp h
      cases h
      intro sp hsp
      rcases List.mem_cons.mp hsp with rfl | hsp
      · exact hs _ (by simp)
      · exact ih hrest h1 sp hsp
    · next hne =>
      obtain ⟨ts, h1, h⟩ := Res.bind_eq_ok.mp h
      obtain ⟨rest, h2, h⟩ := Res.bind_eq_ok.mp h
      cases h
      intro sp hsp
      rcases List.mem_cons.mp hsp with rfl | hsp
      · have hx := (hs x (by simp)).piece (by simpa using hne)
        refine ⟨fun _ => hx, ?_⟩
        rintro ts' rfl
        exact hfn _ _ hx h1
      · exact ih hrest h2 sp hsp

/-- Every row of the encoding belongs to a token of a split. -/
theorem rowsOfSplits_from (wordIdx : Int) (ss : List Split) : ∀ {i : Nat} {rs : List Row},
    rowsOfSplits [] wordIdx ss i = .ok rs → ∀ r ∈ rs, ∃ sp ∈ ss, ∃ ts, sp.tokens = some ts ∧ r.token ∈ ts ∧
      origOffsets sp.normalized r.token.offsets = .ok r.offsets := by
  have key : ∀ (n : NStr) (word : Int) (ts : List Token) {rs : List Row}, rowsOfTokens [] n word ts = .ok rs →
      ∀ r ∈ rs, r.token ∈ ts ∧ origOffsets n r.token.offsets = .ok r.offsets := by
    intro n word ts
    induction ts with
    | nil => intro rs h; cases h; simp
    | cons t ts ih =>
      intro rs h
      rw [rowsOfTokens] at h
      obtain ⟨q, h1, h⟩ := Res.bind_eq_ok.mp h
      obtain ⟨rest, h2, h⟩ := Res.bind_eq_ok.mp h
      cases h
      intro r hr
      rcases List.mem_cons.mp hr with rfl | hr
      · exact ⟨by simp, h1⟩
      · exact ⟨List.mem_cons_of_mem _ (ih h2 r hr).1, (ih h2 r hr).2⟩
  induction ss with
  | nil => intro i rs h; cases h; simp
  | cons sp ss ih =>
    intro i rs h
    rw [rowsOfSplits] at h
    obtain ⟨r1, h1, h⟩ := Res.bind_eq_ok.mp h
    obtain ⟨rest, h2, h⟩ := Res.bind_eq_ok.mp h
    cases h
    intro r hr
    rcases List.mem_append.mp hr with hr | hr
    · obtain ⟨e1, e2⟩ := key _ _ _ h1 r hr
      cases ht : sp.tokens with
      | none => rw [ht] at e1; cases e1
      | some ts => rw [ht] at e1; exact ⟨sp, by simp, ts, ht, e1, e2⟩
    · obtain ⟨sp', a, b⟩ := ih h2 r hr
      exact ⟨sp', by simp [a], b⟩

end Tok.PreTok
