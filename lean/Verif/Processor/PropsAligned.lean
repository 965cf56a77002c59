import Verif.Processor.PropsMaxLength

/-!
# C05: per-token arrays stay aligned over every history
-/

namespace Tok

theorem DeepAligned.aligned {e : Encoding} (h : DeepAligned e) : e.Aligned := by
  cases h with | mk _ h _ => exact h

theorem DeepAligned.over {e : Encoding} (h : DeepAligned e) :
    ∀ o ∈ e.overflowing, DeepAligned o := by
  cases h with | mk _ _ h => exact h

theorem Aligned.of_length {e : Encoding} {n : Nat} (h : ∀ f, (e.arr f).length = n) :
    e.Aligned := by
  intro f
  have := h .ids
  simp only [Encoding.arr] at this
  rw [h f, this]

/-! ### Truncation -/

theorem getCurrentPart_length (p c : List α) (p' c' : List β) (size i stride : Int)
    (hp : p.length = p'.length) (hc : c.length = c'.length) :
    (getCurrentPart p c size i stride).length = (getCurrentPart p' c' size i stride).length := by
  unfold getCurrentPart
  simp only [hp, hc]
  split
  · rfl
  · split <;> split <;> simp [hp, hc]

theorem overflowPart_aligned {prev o : Encoding} (hp : prev.Aligned) (ho : o.Aligned)
    (a b c : Int) : (overflowPart prev o a b c).Aligned := by
  intro f
  have := fun f => getCurrentPart_length (prev.arr f) (o.arr f) prev.ids o.ids a b c (hp f) (ho f)
  cases f with
  | ids => rfl
  | typeIds => exact this .typeIds
  | tokens => exact this .tokens
  | offsets => exact this .offsets
  | specialMask => exact this .specialMask
  | attentionMask => exact this .attentionMask
  | words => exact this .words

theorem truncateLoop_aligned {o : Encoding} (ho : o.Aligned) (a b : Int) (fuel : Nat) (k : Int)
    (prev : Encoding) (hp : prev.Aligned) :
    ∀ x ∈ truncateLoop o a b fuel k prev, DeepAligned x := by
  induction fuel generalizing k prev with
  | zero => simp [truncateLoop]
  | succ fuel ih =>
    unfold truncateLoop
    split
    · have h := overflowPart_aligned hp ho a k b
      intro x hx
      rcases List.mem_cons.1 hx with rfl | hx
      · exact .mk _ h (by simp [overflowPart])
      · exact ih _ _ h x hx
    · simp

theorem cut_eq_ok {l : List α} {n : Int} {x : List α × List α} (h : cut l n = .ok x) :
    0 ≤ n ∧ x = (l.take n.toNat, l.drop n.toNat) := by
  unfold cut at h
  split at h
  · next h' => cases h; exact ⟨h'.1, rfl⟩
  · cases h

theorem truncate_deepAligned {e e' : Encoding} (he : DeepAligned e) (n s : Int)
    (h : e.truncate n s = .ok e') : DeepAligned e' := by
  unfold Encoding.truncate at h
  split at h
  · cases h
  · split at h
    · cases h; exact he
    · simp only [Res.bind_eq_ok] at h
      obtain ⟨x1, h1, x2, h2, x3, h3, x4, h4, x5, h5, x6, h6, x7, h7, h⟩ := h
      have h0 := (cut_eq_ok h1).1
      rw [(cut_eq_ok h1).2, (cut_eq_ok h2).2, (cut_eq_ok h3).2, (cut_eq_ok h4).2,
        (cut_eq_ok h5).2, (cut_eq_ok h6).2, (cut_eq_ok h7).2] at h
      simp only at h
      have ha := he.aligned
      have a2 := ha .typeIds; have a3 := ha .tokens; have a4 := ha .offsets
      have a5 := ha .specialMask; have a6 := ha .attentionMask; have a7 := ha .words
      simp only [Encoding.arr] at a2 a3 a4 a5 a6 a7
      cases h
      refine .mk _ ?_ ?_
      · refine Aligned.of_length (n := min n.toNat e.ids.length) ?_
        intro f; cases f <;> simp [Encoding.arr, *]
      · refine truncateLoop_aligned ?_ _ _ _ _ _ ?_
        · refine Aligned.of_length (n := e.ids.length - n.toNat) ?_
          intro f; cases f <;> simp [Encoding.arr, *]
        · refine Aligned.of_length (n := min n.toNat e.ids.length) ?_
          intro f; cases f <;> simp [Encoding.arr, *]

/-! ### Padding, merging -/

theorem pad_deepAligned {e e' : Encoding} (he : DeepAligned e) (t a b : Int) (k : Str)
    (h : e.pad t a b k .right = .ok e') : DeepAligned e' := by
  obtain ⟨r, h1, h2, h3⟩ := C03_pad_right e t a b k
  rw [h1] at h; cases h
  have key : ∀ x y, x.Aligned → RightPadded t a b k x y → y.Aligned := by
    intro x y hx hxy
    refine Aligned.of_length (n := x.ids.length + (t - x.ids.length).toNat) ?_
    intro f
    rw [hxy.1 f, List.length_append, List.length_replicate, hx f]
  refine .mk _ (key _ _ he.aligned h2) ?_
  intro o ho
  obtain ⟨o', ho', h4, h5⟩ := forall₂_mem_right h3 ho
  have := he.over o' ho'
  exact .mk _ (key _ _ this.aligned h4) (by rw [h5]; exact this.over)

theorem mergeWith_deepAligned {e pair r : Encoding} (he : DeepAligned e) (hp : DeepAligned pair)
    (growing : Bool) (hr : e.mergeWith pair growing = .ok r) : DeepAligned r := by
  induction he generalizing pair r with
  | mk e hl ho ih =>
    induction hp generalizing r with
    | mk pair hl' ho' ih' =>
      have hover := C07_merge_overflow _ _ _ _ hr
      obtain ⟨c1, c2⟩ := C06_merge_concat_of_ok _ _ _ _ hr
      refine .mk _ ?_ ?_
      · refine Aligned.of_length (n := e.ids.length + pair.ids.length) ?_
        intro f
        by_cases hf : f = .offsets
        · subst hf
          have a4 := hl .offsets; have b4 := hl' .offsets
          simp only [Encoding.arr] at a4 b4 ⊢
          rw [c2, List.length_append, List.length_map, a4, b4]
        · rw [c1 f hf, List.length_append, hl f, hl' f]
      · intro o hor
        obtain ⟨⟨x, y⟩, hxy, hm⟩ := forall₂_mem_right hover hor
        simp only at hm
        unfold overflowPairs at hxy
        rw [List.mem_append] at hxy
        rcases hxy with hxy | hxy
        · rw [List.mem_flatMap] at hxy
          obtain ⟨z, hz, hxy⟩ := hxy
          rcases List.mem_cons.1 hxy with h | h
          · cases h
            exact ih _ hz (.mk pair hl' ho') hm
          · obtain ⟨w, hw, h⟩ := List.mem_map.1 h
            cases h
            exact ih _ hz (ho' _ hw) hm
        · obtain ⟨w, hw, h⟩ := List.mem_map.1 hxy
          cases h
          exact ih' _ hw hm

/-! ### Post-processing -/

theorem default_deepAligned {e r : Encoding} {pair : Option Encoding} (he : DeepAligned e)
    (hp : ∀ p, pair = some p → DeepAligned p) (h : defaultProcess e pair = .ok (some r)) :
    DeepAligned r := by
  unfold defaultProcess at h
  cases pair with
  | none => cases h; exact he
  | some p =>
    simp only [Res.bind_eq_ok] at h
    obtain ⟨x, h1, h2⟩ := h
    cases h2
    exact mergeWith_deepAligned he (hp p rfl) _ h1

theorem newEncoding_aligned {a b : List Int} {c : List Str} {d : List (Int × Int)} {e f g : List Int}
    {n : Nat} (ha : a.length = n) (hb : b.length = n) (hc : c.length = n) (hd : d.length = n)
    (he : e.length = n) (hf : f.length = n) (hg : g.length = n) :
    (newEncoding a b c d e f g).Aligned := by
  refine Aligned.of_length (n := n) ?_
  intro x; cases x <;> simp [newEncoding, *]

theorem decorated_deepAligned (g : Encoding → Encoding) (hg : ∀ e, e.Aligned → (g e).Aligned)
    (hg' : ∀ e, (g e).overflowing = []) {e : Encoding} (he : DeepAligned e) :
    DeepAligned { g e with overflowing := e.overflowing.map g } := by
  refine .mk _ ?_ ?_
  · have := hg e he.aligned
    intro f
    have := this f
    cases f <;> exact this
  · intro o ho
    obtain ⟨x, hx, rfl⟩ := List.mem_map.1 ho
    exact .mk _ (hg x (he.over x hx).aligned) (by rw [hg']; simp)

macro "special_aligned" : tactic => `(tactic| (
  intro e ha
  have a2 := ha .typeIds; have a3 := ha .tokens; have a4 := ha .offsets
  have a5 := ha .specialMask; have a6 := ha .attentionMask; have a7 := ha .words
  simp only [Encoding.arr] at a2 a3 a4 a5 a6 a7
  refine Aligned.of_length (n := ?_) ?_
  rotate_left
  · intro f; cases f
    · rfl
    all_goals simp [newEncoding, Bert.addSpecialToken, Bert.pairAddSpecialToken,
        Roberta.addSpecialToken, Roberta.pairAddSpecialToken, Encoding.arr, *]))

theorem bert_special_aligned (bp : Bert) : ∀ e : Encoding, e.Aligned →
    (bp.addSpecialToken e).Aligned := by special_aligned
theorem bert_pair_special_aligned (bp : Bert) : ∀ e : Encoding, e.Aligned →
    (bp.pairAddSpecialToken e).Aligned := by special_aligned
theorem roberta_special_aligned (rp : Roberta) : ∀ e : Encoding, e.Aligned →
    (rp.addSpecialToken e).Aligned := by special_aligned
theorem roberta_pair_special_aligned (rp : Roberta) : ∀ e : Encoding, e.Aligned →
    (rp.pairAddSpecialToken e).Aligned := by special_aligned

theorem bert_deepAligned (bp : Bert) {e r : Encoding} {pair : Option Encoding} (special : Bool)
    (he : DeepAligned e) (hp : ∀ p, pair = some p → DeepAligned p)
    (h : bp.process e pair special = .ok (some r)) : DeepAligned r := by
  unfold Bert.process at h
  split at h
  · exact default_deepAligned he hp h
  · have h1 := decorated_deepAligned bp.addSpecialToken (bert_special_aligned bp)
      (fun _ => rfl) he
    cases pair with
    | none => cases h; exact h1
    | some p =>
      simp only [Res.bind_eq_ok] at h
      obtain ⟨x, h2, h3⟩ := h
      cases h3
      exact mergeWith_deepAligned h1 (decorated_deepAligned bp.pairAddSpecialToken
        (bert_pair_special_aligned bp) (fun _ => rfl) (hp p rfl)) _ h2

theorem processOffsets_deepAligned {e e' : Encoding} (he : DeepAligned e) (aps : Bool)
    (h : processOffsets e aps = .ok e') : DeepAligned e' := by
  obtain ⟨d, h1, h2, h3, h4⟩ := C28_trim_inside e he.aligned aps
  rw [h1] at h; cases h
  refine .mk _ ?_ (by rw [h3]; exact he.over)
  refine Aligned.of_length (n := e.ids.length) ?_
  intro f
  by_cases hf : f = .offsets
  · subst hf
    have := he.aligned .offsets
    have := h4
    simp only [Encoding.arr] at *
    grind
  · rw [h2 f hf, he.aligned f]

theorem processOffsetsDeep_deepAligned {e e' : Encoding} (he : DeepAligned e) (aps : Bool)
    (h : processOffsetsDeep e aps = .ok e') : DeepAligned e' := by
  unfold processOffsetsDeep at h
  simp only [Res.bind_eq_ok] at h
  obtain ⟨d, h1, os, h2, h3⟩ := h
  have hd := processOffsets_deepAligned he aps h1
  cases h3
  rw [mapRes_eq_ok] at h2
  refine .mk _ ?_ ?_
  · intro f; have := hd.aligned f; cases f <;> exact this
  · intro o ho
    obtain ⟨x, hx, h⟩ := forall₂_mem_right h2 ho
    exact processOffsets_deepAligned (hd.over x hx) aps h

theorem roberta_deepAligned (rp : Roberta) {e r : Encoding} {pair : Option Encoding}
    (special : Bool) (he : DeepAligned e) (hp : ∀ p, pair = some p → DeepAligned p)
    (h : rp.process e pair special = .ok (some r)) : DeepAligned r := by
  unfold Roberta.process at h
  cases ht : rp.trimOffsets with
  | false =>
    simp only [ht, Bool.false_eq_true, if_false, Res.bind_ok] at h
    split at h <;> cases h
  | true =>
    simp only [ht, if_true, Res.bind_eq_ok] at h
    obtain ⟨new, h1, np, h2, _, h3, h4⟩ := h
    cases h3
    simp only at h4
    have hn := processOffsetsDeep_deepAligned he _ h1
    have hq : ∀ p, np = some p → DeepAligned p := by
      intro p hpn
      subst hpn
      cases pair with
      | none => cases h2
      | some q =>
        simp only [optMapRes, Res.bind_eq_ok] at h2
        obtain ⟨x, h5, h6⟩ := h2
        cases h6
        exact processOffsetsDeep_deepAligned (hp q rfl) _ h5
    split at h4
    · exact default_deepAligned hn hq h4
    · have h5 := decorated_deepAligned rp.addSpecialToken (roberta_special_aligned rp)
        (fun _ => rfl) hn
      cases np with
      | none => cases h4; exact h5
      | some p =>
        simp only [Res.bind_eq_ok] at h4
        obtain ⟨x, h2, h3⟩ := h4
        cases h3
        exact mergeWith_deepAligned h5 (decorated_deepAligned rp.pairAddSpecialToken
          (roberta_pair_special_aligned rp) (fun _ => rfl) (hq p rfl)) _ h2

theorem setSequenceIds_deepAligned {e e' : Encoding} (he : DeepAligned e) (i : Int)
    (h : e.setSequenceIds i = .ok e') : DeepAligned e' := by
  obtain ⟨x, h1, h2, h3, -⟩ := setSequenceIds_ok e i
  rw [h1] at h; cases h
  refine .mk _ ?_ (by rw [h3]; exact he.over)
  intro f
  have := h2 .ids
  simp only [Encoding.arr] at this
  rw [h2 f, this, he.aligned f]

theorem prepareOne_deepAligned {e e' : Encoding} (he : DeepAligned e) (i : Int)
    (h : prepareOne i e = .ok e') : DeepAligned e' := by
  unfold prepareOne at h
  simp only [Res.bind_eq_ok] at h
  obtain ⟨a, h1, os, h2, h3⟩ := h
  have ha := setSequenceIds_deepAligned he i h1
  rw [mapRes_eq_ok] at h2
  have hos : ∀ o ∈ os, DeepAligned o := by
    intro o ho
    obtain ⟨x, hx, h⟩ := forall₂_mem_right h2 ho
    exact setSequenceIds_deepAligned (ha.over x hx) i h
  split at h3
  · cases h3
    refine .mk _ ?_ hos
    intro f
    have := ha.aligned f
    cases f <;> first | exact this | simp [Encoding.arr]
  · cases h3
    refine .mk _ ?_ hos
    intro f
    have := ha.aligned f
    cases f <;> exact this

theorem byteLevel_deepAligned (trim aps : Bool) {e r : Encoding} {pair : Option Encoding}
    (he : DeepAligned e) (hp : ∀ p, pair = some p → DeepAligned p)
    (h : byteLevelProcess trim aps e pair = .ok (some r)) : DeepAligned r := by
  unfold byteLevelProcess at h
  obtain ⟨encs, h1, new, h2, new', h3, h4⟩ : ∃ encs, prepareEncodings e pair = .ok encs ∧ ∃ new,
      (if trim then mapRes (fun e => processOffsetsDeep e aps) encs else Res.ok encs) = .ok new ∧
      ∃ new', setIdsLoop 0 new = .ok new' ∧
        ((pair ≠ none ∧ mergeEncodings new' false = .ok (some r)) ∨
          (pair = none ∧ idx new' 0 = .ok r)) := by
    cases pair <;> cases trim <;> simpa [Res.bind_eq_ok] using h
  have hencs : ∀ x ∈ encs, DeepAligned x := by
    unfold prepareEncodings at h1
    rw [Res.bind_eq_ok] at h1
    obtain ⟨a, h5, h6⟩ := h1
    have ha := prepareOne_deepAligned he 0 h5
    cases pair with
    | none => cases h6; simpa using ha
    | some p =>
      simp only [Res.bind_eq_ok] at h6
      obtain ⟨b, h7, h8⟩ := h6
      have hb := prepareOne_deepAligned (hp p rfl) 1 h7
      cases h8
      simp [ha, hb]
  have hnew : ∀ x ∈ new, DeepAligned x := by
    split at h2
    · rw [mapRes_eq_ok] at h2
      intro x hx
      obtain ⟨y, hy, h⟩ := forall₂_mem_right h2 hx
      exact processOffsetsDeep_deepAligned (hencs y hy) aps h
    · cases h2; exact hencs
  have hnew' : ∀ (i : Int) (l l' : List Encoding), setIdsLoop i l = .ok l' →
      (∀ x ∈ l, DeepAligned x) → ∀ x ∈ l', DeepAligned x := by
    intro i l
    induction l generalizing i with
    | nil => intro l' h _; cases h; simp
    | cons a l ih =>
      intro l' h hl
      unfold setIdsLoop at h
      simp only [Res.bind_eq_ok] at h
      obtain ⟨b, h5, l'', h6, h7⟩ := h
      cases h7
      have hb : DeepAligned b := by
        split at h5
        · cases h5; exact hl _ (by simp)
        · exact setSequenceIds_deepAligned (hl a (by simp)) i h5
      intro x hx
      rcases List.mem_cons.1 hx with rfl | hx
      · exact hb
      · exact ih _ _ h6 (fun y hy => hl y (by simp [hy])) x hx
  have hfin := hnew' 0 new new' h3 hnew
  have hmerge : ∀ (l : List Encoding) (a r : Encoding), DeepAligned a →
      (∀ x ∈ l, DeepAligned x) → a.merge l false = .ok r → DeepAligned r := by
    intro l
    induction l with
    | nil => intro a r ha _ h; cases h; exact ha
    | cons x l ih =>
      intro a r ha hl h
      rw [Encoding.merge, Res.bind_eq_ok] at h
      obtain ⟨b, h5, h6⟩ := h
      exact ih b r (mergeWith_deepAligned ha (hl x (by simp)) _ h5)
        (fun y hy => hl y (by simp [hy])) h6
  rcases h4 with ⟨-, h4⟩ | ⟨-, h4⟩
  · unfold mergeEncodings at h4
    split at h4
    · cases h4
    · cases h4; exact hfin _ (by simp)
    · rw [Res.bind_eq_ok] at h4
      obtain ⟨x, h5, h6⟩ := h4
      cases h6
      exact hmerge _ _ _ (hfin _ (by simp)) (fun y hy => hfin y (by simp [hy])) h5
  · cases new' with
    | nil => simp [idx] at h4
    | cons a l => simp [idx] at h4; subst h4; exact hfin a (by simp)

/-! ### Histories -/

/-- The operations a program may apply to an encoding.  `other` arguments are
encodings of its own. -/
inductive EncOp where
  | truncate (maxLen stride : Int)
  | padRight (target padId padTypeId : Int) (padToken : Str)
  | mergeWith (other : Encoding) (growing : Bool)
  | default (pair : Option Encoding)
  | bert (bp : Bert) (pair : Option Encoding) (special : Bool)
  | roberta (rp : Roberta) (pair : Option Encoding) (special : Bool)
  | byteLevel (trim aps : Bool) (pair : Option Encoding)

/-- One operation. -/
def EncOp.run (e : Encoding) : EncOp → Res (Option Encoding)
  | .truncate n s => do let r ← e.truncate n s; .ok (some r)
  | .padRight t a b k => do let r ← e.pad t a b k .right; .ok (some r)
  | .mergeWith o g => do let r ← e.mergeWith o g; .ok (some r)
  | .default p => defaultProcess e p
  | .bert bp p s => bp.process e p s
  | .roberta rp p s => rp.process e p s
  | .byteLevel t a p => byteLevelProcess t a e p

/-- The encodings handed to an operation. -/
def EncOp.args : EncOp → List Encoding
  | .mergeWith o _ => [o]
  | .default p | .bert _ p _ | .roberta _ p _ | .byteLevel _ _ p => p.toList
  | _ => []

/-- `e'` is reached from `e` by a sequence of successful operations whose
arguments are aligned. -/
inductive Reaches : Encoding → Encoding → Prop where
  | refl (e) : Reaches e e
  | step {e e' e''} (op : EncOp) : Reaches e e' → (∀ a ∈ op.args, DeepAligned a) →
      op.run e' = .ok (some e'') → Reaches e e''

/-- C05, partial: missing is the template processor, which breaks the claim (see
`C05_template_violated`).  Every other history keeps all arrays equally long, in
the encoding and in its overflowing parts at every depth. -/
theorem C05_histories_partial (e e' : Encoding) (he : DeepAligned e) (h : Reaches e e') :
    DeepAligned e' := by
  induction h with
  | refl => exact he
  | step op _ hargs hrun ih =>
    cases op with
    | truncate n s =>
      simp only [EncOp.run, Res.bind_eq_ok] at hrun
      obtain ⟨r, h1, h2⟩ := hrun; cases h2
      exact truncate_deepAligned ih n s h1
    | padRight t a b k =>
      simp only [EncOp.run, Res.bind_eq_ok] at hrun
      obtain ⟨r, h1, h2⟩ := hrun; cases h2
      exact pad_deepAligned ih t a b k h1
    | mergeWith o g =>
      simp only [EncOp.run, Res.bind_eq_ok] at hrun
      obtain ⟨r, h1, h2⟩ := hrun; cases h2
      exact mergeWith_deepAligned ih (hargs o (by simp [EncOp.args])) g h1
    | default p =>
      exact default_deepAligned ih (fun q hq => hargs q (by simp [EncOp.args, hq])) hrun
    | bert bp p s =>
      exact bert_deepAligned bp s ih (fun q hq => hargs q (by simp [EncOp.args, hq])) hrun
    | roberta rp p s =>
      exact roberta_deepAligned rp s ih (fun q hq => hargs q (by simp [EncOp.args, hq])) hrun
    | byteLevel t a p =>
      exact byteLevel_deepAligned t a ih (fun q hq => hargs q (by simp [EncOp.args, hq])) hrun

/-- A history: truncate the sample to two tokens, then pad it to four. -/
example : ∃ e', Reaches sampleEnc e' ∧ DeepAligned sampleEnc ∧ e'.ids = [1, 2, 0, 0] := by
  have h0 : DeepAligned sampleEnc := .mk _ sampleEnc_aligned (by simp [sampleEnc])
  refine ⟨_, .step (.padRight 4 0 0 ['P']) (.step (.truncate 2 1) (.refl _) (by simp [EncOp.args])
    rfl) (by simp [EncOp.args]) rfl, h0, rfl⟩

/-- C05 is violated by template processing for every input: each special token
in the template leaves the `Words` array one entry per special token short. -/
theorem C05_template_violated (tp : TemplateProc) (e : Encoding) (pair : Option Encoding)
    (he : Fresh e) (hp : ∀ p, pair = some p → Fresh p) (hea : e.Aligned)
    (hpa : ∀ p, pair = some p → p.Aligned)
    (hfit : TemplateFits tp.tab (tp.chosen pair.isSome) pair.isSome true)
    (hadds : 0 < tp.addedTokens pair.isSome) :
    ∃ r, tp.process e pair true = .ok (some r) ∧ ¬ r.Aligned ∧
      r.words.length + tp.addedTokens pair.isSome = r.ids.length := by
  have hne : tp.chosen pair.isSome ≠ [] := by
    intro hc
    have : tp.addedTokens pair.isSome = countAdded (tp.chosen pair.isSome) tp.tab := by
      unfold TemplateProc.addedTokens TemplateProc.chosen; split <;> rfl
    rw [this, hc] at hadds
    simp [countAdded] at hadds
  obtain ⟨r, h1, h2⟩ := C24_template tp e pair true he hp hfit (Or.inr ⟨rfl, hne⟩)
  obtain ⟨r', h1', h3⟩ := C24_template_length tp e pair true he hp hfit (Or.inr ⟨rfl, hne⟩)
  rw [h1] at h1'; cases h1'
  have hw := congrArg List.length (h2 .words)
  simp only [Encoding.arr] at hw
  have hused : ∀ tpl : List Piece,
      (tpl.flatMap (pieceArr tp.tab e pair true .words)).length = usedLen e pair tpl := by
    intro tpl
    induction tpl with
    | nil => rfl
    | cons q tpl ih =>
      rw [List.flatMap_cons, List.length_append, ih]
      cases q with
      | seq isB ty =>
        cases isB with
        | false =>
          have := hea .words
          simp only [Encoding.arr] at this
          simp [pieceArr, seqArr, usedLen, this]
        | true =>
          cases pair with
          | none => simp [pieceArr, usedLen]
          | some p =>
            have := hpa p rfl .words
            simp only [Encoding.arr] at this
            simp [pieceArr, seqArr, usedLen, this]
      | special id ty =>
        simp only [pieceArr, if_true, usedLen]
        split <;> simp [specialArr]
  rw [hused] at hw
  simp only [if_true] at h3
  refine ⟨r, h1, ?_, by omega⟩
  intro hal
  have := hal .words
  simp only [Encoding.arr] at this
  omega

end Tok
