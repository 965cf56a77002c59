import Verif.Config.TemplateBuilder
import Verif.Config.Props

/-! C122: template processors made with the builder. -/

namespace Tok.Config

/-! ### Specification -/

/-- The templates a value of the builder's methods stands for: a text with the pieces between single
spaces, or a list of pieces. -/
def Written : TemplateArg → List Piece → Prop
  | .str s, ps => ∃ parts : List Str, parts ≠ [] ∧ (∀ x ∈ parts, ' ' ∉ x) ∧ s = joinSpace parts ∧ Each DocPiece parts ps
  | .strs l, ps => Each DocPiece l ps
  | .other, _ => False

/-- The value of the last call that sets the single template. -/
def lastSingle : List BuilderCall → Option TemplateArg
  | [] => none
  | c :: cs =>
    match lastSingle cs with
    | some v => some v
    | none => match c with | .single v => some v | _ => none

/-- The value of the last call that sets the pair template. -/
def lastPair : List BuilderCall → Option TemplateArg
  | [] => none
  | c :: cs =>
    match lastPair cs with
    | some v => some v
    | none => match c with | .pair v => some v | _ => none

/-- The list of the last call that sets the special tokens. -/
def lastTokens : List BuilderCall → Option (List (Str × Int))
  | [] => none
  | c :: cs =>
    match lastTokens cs with
    | some v => some v
    | none => match c with | .tokens v => some v | _ => none

/-- The special tokens of a list: the id that the list gives last to a name. -/
def tokenOf (toks : List (Str × Int)) (name : Str) : Option SpecialToken :=
  match toks.reverse.find? (fun t => t.1 == name) with
  | some t => some ⟨name, [t.2], [name]⟩
  | none => none

/-- How many ids a piece adds. -/
def addedBy (tab : TokenTable) : Piece → Nat
  | .seq _ _ => 0
  | .special id _ => match tab id with | some t => t.ids.length | none => 0

/-! ### Templates -/

theorem templateFromMulti_iff (parts : List Str) : ∀ ps, templateFromMulti parts = .ok ps ↔ Each DocPiece parts ps := by
  induction parts with
  | nil =>
    intro ps
    simp only [templateFromMulti, Res.ok.injEq]
    constructor
    · rintro rfl; exact .nil
    · intro h; cases h; rfl
  | cons s rest ih =>
    intro ps
    rw [templateFromMulti]
    constructor
    · intro h
      obtain ⟨p, hp, h⟩ := Res.bind_eq_ok.mp h
      obtain ⟨qs, hq, h⟩ := Res.bind_eq_ok.mp h
      injection h with h; subst h
      exact .cons ((C52_piece s p).mp hp) ((ih qs).mp hq)
    · intro h
      cases h with
      | cons hp hq => simp only [(C52_piece s _).mpr hp, (ih _).mpr hq, Res.bind_ok]

theorem joinSpace_cons (p : Str) (ps : List Str) :
    joinSpace (p :: ps) = p ++ ps.flatMap (fun x => ' ' :: x) := by
  induction ps generalizing p with
  | nil => simp [joinSpace]
  | cons q ps ih =>
    rw [joinSpace, ih q]
    · simp
    · simp

theorem newTemplate_iff (v : TemplateArg) (ps : List Piece) : newTemplate v = .ok ps ↔ Written v ps := by
  cases v with
  | other => simp [newTemplate, Written]
  | strs l => exact templateFromMulti_iff l ps
  | str s =>
    constructor
    · intro h
      obtain ⟨p, qs, h1, h2, h3⟩ := splitChar_spec ' ' s [] (by simp)
      refine ⟨p :: qs, by simp, h2, ?_, ?_⟩
      · rw [joinSpace_cons, ← h3]; rfl
      · have h' : templateFromOne s = .ok ps := h
        unfold templateFromOne at h'
        rw [h1] at h'
        exact (templateFromMulti_iff _ _).mp h'
    · rintro ⟨parts, hne, hsp, rfl, he⟩
      exact (C52_template parts hne hsp ps).mpr he

/-! ### Counting -/

theorem countAddedPtr_some (tpl : List Piece) (t : Tokens) :
    countAddedPtr tpl (some t) = .ok ((tpl.map (addedBy t.tokenMap)).sum) := by
  induction tpl with
  | nil => rfl
  | cons p tpl ih =>
    cases p with
    | seq b ty => rw [countAddedPtr, ih]; simp [addedBy]
    | special id ty =>
      simp only [countAddedPtr, ih, Res.bind_ok]
      rfl

theorem countAdded_sum (tpl : List Piece) (tab : TokenTable) : countAdded tpl tab = (tpl.map (addedBy tab)).sum := by
  induction tpl with
  | nil => rfl
  | cons p tpl ih =>
    cases p with
    | seq b ty => rw [countAdded, ih]; simp [addedBy]
    | special id ty =>
      rw [countAdded, ih, List.map_cons, List.sum_cons, addedBy]
      rfl

theorem update_some (o : TemplateObj) (t : Tokens) (h : o.tokens = some t) :
    o.update = .ok { o with addedSingle := (o.single.map (addedBy t.tokenMap)).sum, addedPair := (o.pair.map (addedBy t.tokenMap)).sum } := by
  unfold TemplateObj.update
  rw [h]
  simp only [countAddedPtr_some, Res.bind_ok]

theorem update_fields {o o' : TemplateObj} (h : o.update = .ok o') :
    o'.single = o.single ∧ o'.pair = o.pair ∧ o'.tokens = o.tokens := by
  unfold TemplateObj.update at h
  obtain ⟨a, _, h⟩ := Res.bind_eq_ok.mp h
  obtain ⟨b, _, h⟩ := Res.bind_eq_ok.mp h
  injection h with h
  subst h
  exact ⟨rfl, rfl, rfl⟩

/-! ### Special tokens -/

theorem newTokensLoop_spec (toks : List (Str × Int)) : ∀ t : Tokens,
    (∀ k, (newTokensLoop toks t).tokenMap k =
      match toks.reverse.find? (fun x => x.1 == k) with
      | some x => some ⟨k, [x.2], [k]⟩
      | none => t.tokenMap k) ∧
    (newTokensLoop toks t).orderedKeys = t.orderedKeys ++ toks.map (·.1) := by
  induction toks with
  | nil => intro t; exact ⟨fun k => rfl, by simp [newTokensLoop]⟩
  | cons x toks ih =>
    intro t
    obtain ⟨v, i⟩ := x
    obtain ⟨h1, h2⟩ := ih ⟨fun k => if k = v then some (specialTokenFrom v i) else t.tokenMap k, t.orderedKeys ++ [v]⟩
    refine ⟨?_, ?_⟩
    · intro k
      rw [newTokensLoop, h1 k, List.reverse_cons, List.find?_append]
      cases hf : toks.reverse.find? (fun x => x.1 == k) with
      | some x => simp
      | none =>
        by_cases hk : k = v
        · subst hk
          simp [specialTokenFrom]
        · have hvk : (v == k) = false := by simp; exact fun e => hk e.symm
          simp [hk, hvk]
    · rw [newTokensLoop, h2]; simp

theorem newTokens_map (toks : List (Str × Int)) : (newTokens toks).tokenMap = tokenOf toks := by
  funext k
  rw [newTokens, (newTokensLoop_spec toks _).1 k]
  rfl

theorem newTokens_keys (toks : List (Str × Int)) : (newTokens toks).orderedKeys = toks.map (·.1) := by
  rw [newTokens, (newTokensLoop_spec toks _).2]
  rfl

/-- C122: the special tokens in their order are those of the list, each with the last id given to its
name. -/
theorem C122_order (toks : List (Str × Int)) (i : Nat) (name : Str) (id : Int) (h : toks[i]? = some (name, id)) :
    (newTokens toks).byOrder i = .ok (tokenOf toks name) ∧
    ((toks.map (·.1)).Nodup → tokenOf toks name = some ⟨name, [id], [name]⟩) := by
  constructor
  · unfold Tokens.byOrder
    rw [newTokens_keys]
    have : idx (toks.map (·.1)) (i : Int) = .ok name := by
      unfold idx
      simp [h]
    rw [this, Res.bind_ok, Tokens.byKey, newTokens_map]
  · intro hn
    have hfind : toks.reverse.find? (fun t => t.1 == name) = some (name, id) := by
      have hm : (name, id) ∈ toks.reverse := List.mem_reverse.mpr (List.mem_of_getElem? h)
      cases hf : toks.reverse.find? (fun t => t.1 == name) with
      | none => exact absurd (List.find?_eq_none.mp hf _ hm) (by simp)
      | some y =>
        have hy := List.find?_some hf
        have hym := List.mem_reverse.mp (List.mem_of_find?_eq_some hf)
        obtain ⟨n', j⟩ := y
        simp only [beq_iff_eq] at hy
        subst hy
        obtain ⟨k, hk⟩ := List.getElem?_of_mem hym
        have hik : i = k := by
          have e1 : (toks.map (·.1))[i]? = some n' := by simp [h]
          have e2 : (toks.map (·.1))[k]? = some n' := by simp [hk]
          have hl : i < (toks.map (·.1)).length := (List.getElem?_eq_some_iff.mp e1).1
          exact (List.getElem?_inj hl hn).mp (e1.trans e2.symm)
        subst hik
        rw [h] at hk
        exact hk.symm
    simp [tokenOf, hfind]

/-! ### Calls -/

theorem call_ok (o : TemplateObj) (t : Tokens) (h : o.tokens = some t) (c : BuilderCall)
    (hw : match c with | .single v => ∃ ps, Written v ps | .pair v => ∃ ps, Written v ps | .tokens _ => True) :
    ∃ o' t', o.call c = .ok o' ∧ o'.tokens = some t' ∧
      o'.addedSingle = (o'.single.map (addedBy t'.tokenMap)).sum ∧ o'.addedPair = (o'.pair.map (addedBy t'.tokenMap)).sum := by
  cases c with
  | single v =>
    obtain ⟨ps, hps⟩ := hw
    have e := update_some { o with single := ps } t h
    have hc : o.call (.single v) = TemplateObj.update { o with single := ps } := by
      simp only [TemplateObj.call, TemplateObj.newSingle, (newTemplate_iff v ps).mpr hps]
    exact ⟨_, t, hc.trans e, h, rfl, rfl⟩
  | pair v =>
    obtain ⟨ps, hps⟩ := hw
    have e := update_some { o with pair := ps } t h
    have hc : o.call (.pair v) = TemplateObj.update { o with pair := ps } := by
      simp only [TemplateObj.call, TemplateObj.newPair, (newTemplate_iff v ps).mpr hps]
    exact ⟨_, t, hc.trans e, h, rfl, rfl⟩
  | tokens toks =>
    have e := update_some { o with tokens := some (newTokens toks) } (newTokens toks) rfl
    exact ⟨_, newTokens toks, e, rfl, rfl, rfl⟩

theorem calls_append (cs ds : List BuilderCall) : ∀ o : TemplateObj,
    o.calls (cs ++ ds) = (do let o' ← o.calls cs; o'.calls ds) := by
  induction cs with
  | nil => intro o; rfl
  | cons c cs ih =>
    intro o
    simp only [List.cons_append, TemplateObj.calls]
    cases hc : o.call c with
    | ok o' => simp only [Res.bind_ok, ih]
    | err => rfl
    | panic => rfl

theorem call_single {o o' : TemplateObj} {c : BuilderCall} (h : o.call c = .ok o') :
    (match c with | .single v => Written v o'.single | _ => o'.single = o.single) ∧
    (match c with | .pair v => Written v o'.pair | _ => o'.pair = o.pair) ∧
    (match c with | .tokens toks => o'.tokens = some (newTokens toks) | _ => o'.tokens = o.tokens) := by
  cases c with
  | single v =>
    simp only [TemplateObj.call, TemplateObj.newSingle] at h
    cases ht : newTemplate v with
    | err => rw [ht] at h; cases h
    | panic => rw [ht] at h; cases h
    | ok ps =>
      rw [ht] at h
      obtain ⟨h1, h2, h3⟩ := update_fields h
      refine ⟨?_, h2, h3⟩
      show Written v o'.single
      rw [h1]
      exact (newTemplate_iff v ps).mp ht
  | pair v =>
    simp only [TemplateObj.call, TemplateObj.newPair] at h
    cases ht : newTemplate v with
    | err => rw [ht] at h; cases h
    | panic => rw [ht] at h; cases h
    | ok ps =>
      rw [ht] at h
      obtain ⟨h1, h2, h3⟩ := update_fields h
      refine ⟨h1, ?_, h3⟩
      show Written v o'.pair
      rw [h2]
      exact (newTemplate_iff v ps).mp ht
  | tokens toks =>
    obtain ⟨h1, h2, h3⟩ := update_fields (show TemplateObj.update _ = .ok o' from h)
    exact ⟨h1, h2, h3⟩

/-- C122: after any calls, the templates and the special tokens are those of the last call that sets
them, whatever was set before and in whatever order. -/
theorem C122_last (cs : List BuilderCall) : ∀ (o o' : TemplateObj), o.calls cs = .ok o' →
    (match lastSingle cs with | some v => Written v o'.single | none => o'.single = o.single) ∧
    (match lastPair cs with | some v => Written v o'.pair | none => o'.pair = o.pair) ∧
    (match lastTokens cs with
      | some toks => ∃ t, o'.tokens = some t ∧ t.tokenMap = tokenOf toks ∧ t.orderedKeys = toks.map (·.1)
      | none => o'.tokens = o.tokens) := by
  induction cs with
  | nil =>
    intro o o' h
    injection h with h
    subst h
    exact ⟨rfl, rfl, rfl⟩
  | cons c cs ih =>
    intro o o' h
    obtain ⟨o1, h1, h2⟩ := Res.bind_eq_ok.mp h
    obtain ⟨a1, a2, a3⟩ := ih o1 o' h2
    obtain ⟨b1, b2, b3⟩ := call_single h1
    refine ⟨?_, ?_, ?_⟩
    · cases hl : lastSingle cs with
      | some v => rw [hl] at a1; simp only [lastSingle, hl]; exact a1
      | none =>
        rw [hl] at a1
        simp only at a1
        cases c with
        | single v => simp only [lastSingle, hl, a1]; exact b1
        | pair v => simp only [lastSingle, hl]; exact a1.trans b1
        | tokens v => simp only [lastSingle, hl]; exact a1.trans b1
    · cases hl : lastPair cs with
      | some v => rw [hl] at a2; simp only [lastPair, hl]; exact a2
      | none =>
        rw [hl] at a2
        simp only at a2
        cases c with
        | single v => simp only [lastPair, hl]; exact a2.trans b2
        | pair v => simp only [lastPair, hl, a2]; exact b2
        | tokens v => simp only [lastPair, hl]; exact a2.trans b2
    · cases hl : lastTokens cs with
      | some v => rw [hl] at a3; simp only [lastTokens, hl]; exact a3
      | none =>
        rw [hl] at a3
        simp only at a3
        cases c with
        | single v => simp only [lastTokens, hl]; exact a3.trans b3
        | pair v => simp only [lastTokens, hl]; exact a3.trans b3
        | tokens v => simp only [lastTokens, hl]; exact ⟨newTokens v, a3.trans b3, newTokens_map v, newTokens_keys v⟩

/-- A processor whose announced counts are right. -/
def CountsRight (o : TemplateObj) : Prop :=
  ∃ t, o.tokens = some t ∧ o.addedSingle = (o.single.map (addedBy t.tokenMap)).sum ∧
    o.addedPair = (o.pair.map (addedBy t.tokenMap)).sum

/-- C122: calls succeed exactly if all templates are well-formed, and panic otherwise; afterwards the
counts the processor announces are the numbers of ids that its special tokens add, and
`DefaultAdded` gives the same. -/
theorem C122_counts (cs : List BuilderCall) : ∀ (o : TemplateObj), CountsRight o →
    ((∀ c ∈ cs, match c with | .single v => ∃ ps, Written v ps | .pair v => ∃ ps, Written v ps | .tokens _ => True) →
      ∃ o', o.calls cs = .ok o' ∧ CountsRight o' ∧ o'.defaultAdded true = .ok o'.addedSingle ∧
        o'.defaultAdded false = .ok o'.addedPair) ∧
    ((∃ c ∈ cs, match c with | .single v => ¬ ∃ ps, Written v ps | .pair v => ¬ ∃ ps, Written v ps | .tokens _ => False) →
      o.calls cs = .panic) := by
  induction cs with
  | nil =>
    intro o ho
    refine ⟨fun _ => ⟨o, rfl, ho, ?_, ?_⟩, fun ⟨c, hc, _⟩ => by cases hc⟩
    · obtain ⟨t, h1, h2, h3⟩ := ho
      unfold TemplateObj.defaultAdded
      rw [h1, h2]; simp [countAddedPtr_some]
    · obtain ⟨t, h1, h2, h3⟩ := ho
      unfold TemplateObj.defaultAdded
      rw [h1, h3]; simp [countAddedPtr_some]
  | cons c cs ih =>
    intro o ho
    obtain ⟨t, h1, h2, h3⟩ := ho
    by_cases hw : (match c with | .single v => ∃ ps, Written v ps | .pair v => ∃ ps, Written v ps | .tokens _ => True)
    · obtain ⟨o1, t1, g1, g2, g3, g4⟩ := call_ok o t h1 c hw
      obtain ⟨i1, i2⟩ := ih o1 ⟨t1, g2, g3, g4⟩
      refine ⟨?_, ?_⟩
      · intro hall
        obtain ⟨o', k1, k2⟩ := i1 (fun d hd => hall d (List.mem_cons_of_mem _ hd))
        refine ⟨o', ?_, k2⟩
        rw [TemplateObj.calls, g1, Res.bind_ok, k1]
      · rintro ⟨d, hd, hbad⟩
        rcases List.mem_cons.mp hd with rfl | hd
        · cases d with
          | single v => exact absurd hw hbad
          | pair v => exact absurd hw hbad
          | tokens v => exact absurd hbad id
        · rw [TemplateObj.calls, g1, Res.bind_ok]
          exact i2 ⟨d, hd, hbad⟩
    · refine ⟨fun hall => absurd (hall c List.mem_cons_self) hw, fun _ => ?_⟩
      have hp : o.call c = .panic := by
        cases c with
        | tokens v => exact absurd trivial hw
        | single v =>
          simp only [TemplateObj.call, TemplateObj.newSingle]
          cases hn : newTemplate v with
          | ok ps => exact absurd ⟨ps, (newTemplate_iff v ps).mp hn⟩ hw
          | err => rfl
          | panic => rfl
        | pair v =>
          simp only [TemplateObj.call, TemplateObj.newPair]
          cases hn : newTemplate v with
          | ok ps => exact absurd ⟨ps, (newTemplate_iff v ps).mp hn⟩ hw
          | err => rfl
          | panic => rfl
      rw [TemplateObj.calls, hp]
      rfl

/-- C122: `NewTemplateProcessing` gives a processor with the given parts whose counts are right. -/
theorem C122_new (single pair : List Piece) (t : Tokens) :
    ∃ o, newTemplateObj single pair (some t) = .ok o ∧ o.single = single ∧ o.pair = pair ∧ o.tokens = some t ∧ CountsRight o := by
  refine ⟨⟨single, pair, (single.map (addedBy t.tokenMap)).sum, (pair.map (addedBy t.tokenMap)).sum, some t⟩, ?_,
    rfl, rfl, rfl, t, rfl, rfl, rfl⟩
  simp only [newTemplateObj, countAddedPtr_some, Res.bind_ok]

/-- C122: the processor the builder usually starts from has no special tokens, and templates of the first
sequence alone. -/
theorem C122_default : ∃ o, defaultTemplateObj = .ok o ∧ o.single = [.seq false 0] ∧ o.pair = [.seq false 1] ∧
    CountsRight o ∧ ∃ t, o.tokens = some t ∧ (∀ k, t.byKey k = none) ∧ t.orderedKeys = [] := by
  have e0 : templateFromOne "$0".toList = .ok [.seq false 0] := by decide +kernel
  have e1 : templateFromOne "$1".toList = .ok [.seq false 1] := by decide +kernel
  refine ⟨⟨[.seq false 0], [.seq false 1], 0, 0, some defaultTokens⟩, ?_, rfl, rfl, ⟨defaultTokens, rfl, rfl, rfl⟩,
    defaultTokens, rfl, fun _ => rfl, rfl⟩
  simp only [defaultTemplateObj, e0, e1, Res.bind_ok]

/-- C122: what the processor announces is what `Process` adds. -/
theorem C122_announces (o : TemplateObj) (t : Tokens) (ht : o.tokens = some t) (ho : CountsRight o) (e : Encoding)
    (pair : Option Encoding) (he : Fresh e) (hp : ∀ p, pair = some p → Fresh p)
    (hfit : TemplateFits t.tokenMap (if pair.isSome then o.pair else o.single) pair.isSome true)
    (hsome : (if pair.isSome then o.pair else o.single) ≠ []) :
    ∃ r, (o.toProcessor t).process e pair true = .ok (some r) ∧
      r.ids.length = usedLen e pair (if pair.isSome then o.pair else o.single) + (o.toProcessor t).addedTokens pair.isSome := by
  obtain ⟨r, h1, h2⟩ := C24_template_length ⟨o.single, o.pair, t.tokenMap⟩ e pair true he hp hfit (Or.inr ⟨rfl, hsome⟩)
  refine ⟨r, h1, ?_⟩
  rw [h2]
  obtain ⟨t', g1, g2, g3⟩ := ho
  rw [ht] at g1
  injection g1 with g1
  subst g1
  simp only [TemplateObj.toProcessor, TemplateProc.addedTokens, TemplateProc.chosen, if_true, countAdded_sum, g2, g3]

/-! ### The usual case -/

/-- A name that can be written in a template text. -/
def PlainName (s : Str) : Prop := ' ' ∉ s ∧ ':' ∉ s ∧ s.head? ≠ some '$'

theorem doc_name {s : Str} (h : PlainName s) : DocPiece s (.special s 0) := .base s _ h.2.1 (.token s h.2.2)

theorem doc_a : DocPiece "$A".toList (.seq false 0) := .base _ _ (by decide) (.seqA _ (Or.inr (Or.inl rfl)))

theorem lit_one : IntLit "1".toList 1 :=
  .plain "1".toList (by decide) (by intro c hc; simp at hc; subst hc; unfold IsDigit; decide) (by decide)

theorem doc_b : DocPiece "$B:1".toList (.seq true 1) :=
  .seqWith "$B".toList "1".toList true 0 1 (by decide) (.seqB _ (Or.inl rfl)) lit_one

theorem doc_name_typed {s : Str} (h : PlainName s) : DocPiece (s ++ ":1".toList) (.special s 1) :=
  .tokenWith s "1".toList s 0 1 h.2.1 (.token s h.2.2) lit_one

theorem lastSingle_unique (cs : List BuilderCall) (v : TemplateArg) (h : ∀ w, BuilderCall.single w ∈ cs → w = v)
    (hm : .single v ∈ cs) : lastSingle cs = some v := by
  induction cs with
  | nil => cases hm
  | cons c cs ih =>
    cases hl : lastSingle cs with
    | some w =>
      have hw : ∀ (cs : List BuilderCall) w, lastSingle cs = some w → .single w ∈ cs := by
        intro cs
        induction cs with
        | nil => intro w h; cases h
        | cons c cs ih =>
          intro w h
          cases hl : lastSingle cs with
          | some x =>
            simp only [lastSingle, hl, Option.some.injEq] at h
            exact List.mem_cons_of_mem _ (ih w (by rw [hl, h]))
          | none =>
            cases c with
            | single x => simp only [lastSingle, hl, Option.some.injEq] at h; rw [h]; exact List.mem_cons_self
            | pair x => simp only [lastSingle, hl] at h; cases h
            | tokens x => simp only [lastSingle, hl] at h; cases h
      simp only [lastSingle, hl]
      rw [h w (List.mem_cons_of_mem _ (hw cs w hl))]
    | none =>
      rcases List.mem_cons.mp hm with hm | hm
      · subst hm; simp only [lastSingle, hl]
      · rw [ih (fun w hw => h w (List.mem_cons_of_mem _ hw)) hm] at hl; cases hl

theorem lastPair_unique (cs : List BuilderCall) (v : TemplateArg) (h : ∀ w, BuilderCall.pair w ∈ cs → w = v)
    (hm : .pair v ∈ cs) : lastPair cs = some v := by
  induction cs with
  | nil => cases hm
  | cons c cs ih =>
    cases hl : lastPair cs with
    | some w =>
      have hw : ∀ (cs : List BuilderCall) w, lastPair cs = some w → .pair w ∈ cs := by
        intro cs
        induction cs with
        | nil => intro w h; cases h
        | cons c cs ih =>
          intro w h
          cases hl : lastPair cs with
          | some x =>
            simp only [lastPair, hl, Option.some.injEq] at h
            exact List.mem_cons_of_mem _ (ih w (by rw [hl, h]))
          | none =>
            cases c with
            | pair x => simp only [lastPair, hl, Option.some.injEq] at h; rw [h]; exact List.mem_cons_self
            | single x => simp only [lastPair, hl] at h; cases h
            | tokens x => simp only [lastPair, hl] at h; cases h
      simp only [lastPair, hl]
      rw [h w (List.mem_cons_of_mem _ (hw cs w hl))]
    | none =>
      rcases List.mem_cons.mp hm with hm | hm
      · subst hm; simp only [lastPair, hl]
      · rw [ih (fun w hw => h w (List.mem_cons_of_mem _ hw)) hm] at hl; cases hl

theorem lastTokens_unique (cs : List BuilderCall) (v : List (Str × Int)) (h : ∀ w, BuilderCall.tokens w ∈ cs → w = v)
    (hm : .tokens v ∈ cs) : lastTokens cs = some v := by
  induction cs with
  | nil => cases hm
  | cons c cs ih =>
    cases hl : lastTokens cs with
    | some w =>
      have hw : ∀ (cs : List BuilderCall) w, lastTokens cs = some w → .tokens w ∈ cs := by
        intro cs
        induction cs with
        | nil => intro w h; cases h
        | cons c cs ih =>
          intro w h
          cases hl : lastTokens cs with
          | some x =>
            simp only [lastTokens, hl, Option.some.injEq] at h
            exact List.mem_cons_of_mem _ (ih w (by rw [hl, h]))
          | none =>
            cases c with
            | tokens x => simp only [lastTokens, hl, Option.some.injEq] at h; rw [h]; exact List.mem_cons_self
            | single x => simp only [lastTokens, hl] at h; cases h
            | pair x => simp only [lastTokens, hl] at h; cases h
      simp only [lastTokens, hl]
      rw [h w (List.mem_cons_of_mem _ (hw cs w hl))]
    | none =>
      rcases List.mem_cons.mp hm with hm | hm
      · subst hm; simp only [lastTokens, hl]
      · rw [ih (fun w hw => h w (List.mem_cons_of_mem _ hw)) hm] at hl; cases hl

/-- The calls for templates like `[CLS] $A [SEP]` and `[CLS] $A [SEP] $B:1 [SEP]:1`. -/
def usualCalls (cls sep : Str) (i j : Int) : List BuilderCall :=
  [.single (.str (joinSpace [cls, "$A".toList, sep])),
   .pair (.str (joinSpace [cls, "$A".toList, sep, "$B:1".toList, sep ++ ":1".toList])),
   .tokens [(cls, i), (sep, j)]]

theorem rep2 (n : Nat) : List.replicate (n + 2) (0 : Int) = List.replicate 1 0 ++ List.replicate n 0 ++ List.replicate 1 0 := by
  rw [List.replicate_append_replicate, List.replicate_append_replicate]
  congr 1
  omega

/-- C122: with any names for the two tokens, and with the three calls in any order, the processor adds
the tokens where the templates say and announces two and three of them. -/
theorem C122_usual (cls sep : Str) (i j : Int) (hc : PlainName cls) (hs : PlainName sep) (hne : cls ≠ sep)
    (cs : List BuilderCall) (hperm : cs.Perm (usualCalls cls sep i j)) (o : TemplateObj) (ho : CountsRight o)
    (e p : Encoding) (he : Fresh e) (hp : Fresh p) :
    ∃ o' t, o.calls cs = .ok o' ∧ o'.tokens = some t ∧
      (o'.toProcessor t).addedTokens false = 2 ∧ (o'.toProcessor t).addedTokens true = 3 ∧
      (∃ r, (o'.toProcessor t).process e none true = .ok (some r) ∧
        r.ids = [i] ++ e.ids ++ [j] ∧ r.tokens = [cls] ++ e.tokens ++ [sep] ∧
        r.typeIds = List.replicate (e.ids.length + 2) 0) ∧
      (∃ r, (o'.toProcessor t).process e (some p) true = .ok (some r) ∧
        r.ids = [i] ++ e.ids ++ [j] ++ p.ids ++ [j] ∧
        r.tokens = [cls] ++ e.tokens ++ [sep] ++ p.tokens ++ [sep] ∧
        r.typeIds = List.replicate (e.ids.length + 2) 0 ++ List.replicate (p.ids.length + 1) 1) ∧
      (∃ r, (o'.toProcessor t).process e (some p) false = .ok (some r) ∧ r.ids = e.ids ++ p.ids ∧
        r.tokens = e.tokens ++ p.tokens) := by
  have wS : Written (.str (joinSpace [cls, "$A".toList, sep])) [.special cls 0, .seq false 0, .special sep 0] := by
    refine ⟨[cls, "$A".toList, sep], by simp, ?_, rfl, ?_⟩
    · intro x hx
      simp only [List.mem_cons, List.not_mem_nil, or_false] at hx
      rcases hx with rfl | rfl | rfl
      · exact hc.1
      · decide
      · exact hs.1
    · exact .cons (doc_name hc) (.cons doc_a (.cons (doc_name hs) .nil))
  have wP : Written (.str (joinSpace [cls, "$A".toList, sep, "$B:1".toList, sep ++ ":1".toList]))
      [.special cls 0, .seq false 0, .special sep 0, .seq true 1, .special sep 1] := by
    refine ⟨[cls, "$A".toList, sep, "$B:1".toList, sep ++ ":1".toList], by simp, ?_, rfl, ?_⟩
    · intro x hx
      simp only [List.mem_cons, List.not_mem_nil, or_false] at hx
      rcases hx with rfl | rfl | rfl | rfl | rfl
      · exact hc.1
      · decide
      · exact hs.1
      · decide
      · intro hm
        rcases List.mem_append.mp hm with hm | hm
        · exact hs.1 hm
        · exact absurd hm (by decide)
    · exact .cons (doc_name hc) (.cons doc_a (.cons (doc_name hs) (.cons doc_b (.cons (doc_name_typed hs) .nil))))
  have hmem : ∀ c, c ∈ cs ↔ c ∈ usualCalls cls sep i j := fun c => hperm.mem_iff
  obtain ⟨o', h1, h2, -, -⟩ := (C122_counts cs o ho).1 (by
    intro c hcm
    rw [hmem] at hcm
    simp only [usualCalls, List.mem_cons, List.not_mem_nil, or_false] at hcm
    rcases hcm with rfl | rfl | rfl
    · exact ⟨_, wS⟩
    · exact ⟨_, wP⟩
    · exact trivial)
  obtain ⟨l1, l2, l3⟩ := C122_last cs o o' h1
  rw [lastSingle_unique cs _ (by intro w hw; rw [hmem] at hw; simpa [usualCalls] using hw)
    ((hmem _).mpr (by unfold usualCalls; exact List.mem_cons_self))] at l1
  rw [lastPair_unique cs _ (by intro w hw; rw [hmem] at hw; simpa [usualCalls] using hw)
    ((hmem _).mpr (by unfold usualCalls; exact List.mem_cons_of_mem _ List.mem_cons_self))] at l2
  rw [lastTokens_unique cs _ (by intro w hw; rw [hmem] at hw; simpa [usualCalls] using hw)
    ((hmem _).mpr (by unfold usualCalls; exact List.mem_cons_of_mem _ (List.mem_cons_of_mem _ List.mem_cons_self)))] at l3
  obtain ⟨t, ht, htm, -⟩ := l3
  have eS : o'.single = [.special cls 0, .seq false 0, .special sep 0] := by
    have a := (newTemplate_iff _ _).mpr wS
    have b := (newTemplate_iff _ _).mpr l1
    exact (Res.ok.inj (a.symm.trans b)).symm
  have eP : o'.pair = [.special cls 0, .seq false 0, .special sep 0, .seq true 1, .special sep 1] := by
    have a := (newTemplate_iff _ _).mpr wP
    have b := (newTemplate_iff _ _).mpr l2
    exact (Res.ok.inj (a.symm.trans b)).symm
  have tc : t.tokenMap cls = some ⟨cls, [i], [cls]⟩ := by
    have : (sep == cls) = false := by simp; exact fun h => hne h.symm
    rw [htm]; simp [tokenOf, this]
  have ts : t.tokenMap sep = some ⟨sep, [j], [sep]⟩ := by
    rw [htm]; simp [tokenOf]
  obtain ⟨t', c1, c2, c3⟩ := h2
  rw [ht] at c1; injection c1 with c1; subst c1
  have fits : ∀ (b sp : Bool) tpl, tpl = [Piece.special cls 0, .seq false 0, .special sep 0] ∨
      (b = true ∧ tpl = [Piece.special cls 0, .seq false 0, .special sep 0, .seq true 1, .special sep 1]) →
      TemplateFits t.tokenMap tpl b sp := by
    intro b sp tpl h
    refine ⟨?_, ?_⟩
    · rintro ty hm
      rcases h with rfl | ⟨rfl, -⟩
      · simp at hm
      · rfl
    · intro _ id ty hm
      have : id = cls ∨ id = sep := by
        rcases h with rfl | ⟨-, rfl⟩
        · simp at hm; rcases hm with ⟨rfl, -⟩ | ⟨rfl, -⟩ <;> simp
        · simp at hm; rcases hm with ⟨rfl, -⟩ | ⟨rfl, -⟩ | ⟨rfl, -⟩ <;> simp
      rcases this with rfl | rfl
      · exact ⟨_, tc⟩
      · exact ⟨_, ts⟩
  refine ⟨o', t, h1, ht, ?_, ?_, ?_, ?_, ?_⟩
  · show o'.addedSingle = 2
    rw [c2, eS]; simp [addedBy, tc, ts]
  · show o'.addedPair = 3
    rw [c3, eP]; simp [addedBy, tc, ts]
  · obtain ⟨r, r1, r2⟩ := C24_template ⟨o'.single, o'.pair, t.tokenMap⟩ e none true he (by simp)
      (fits _ _ _ (Or.inl eS)) (Or.inr ⟨rfl, by simp [TemplateProc.chosen, eS]⟩)
    have a1 := r2 .ids
    have a2 := r2 .tokens
    have a3 := r2 .typeIds
    simp only [TemplateProc.chosen, eS, Option.isSome_none, Bool.false_eq_true, if_false, List.flatMap_cons, List.flatMap_nil,
      pieceArr, if_true, tc, ts, specialArr, seqArr, Encoding.arr] at a1 a2 a3
    refine ⟨r, r1, by simpa using a1, by simpa using a2, ?_⟩
    rw [a3, rep2, List.append_nil, List.append_assoc]
    rfl
  · obtain ⟨r, r1, r2⟩ := C24_template ⟨o'.single, o'.pair, t.tokenMap⟩ e (some p) true he
      (fun q hq => by injection hq with hq; exact hq ▸ hp)
      (fits _ _ _ (Or.inr ⟨rfl, eP⟩)) (Or.inr ⟨rfl, by simp [TemplateProc.chosen, eP]⟩)
    have a1 := r2 .ids
    have a2 := r2 .tokens
    have a3 := r2 .typeIds
    simp only [TemplateProc.chosen, eP, Option.isSome_some, if_true, List.flatMap_cons, List.flatMap_nil,
      pieceArr, if_true, tc, ts, specialArr, seqArr, Encoding.arr] at a1 a2 a3
    refine ⟨r, r1, by simpa using a1, by simpa using a2, ?_⟩
    rw [a3, rep2, ← List.replicate_append_replicate (n := p.ids.length), List.append_nil]
    simp only [List.append_assoc]
    rfl
  · obtain ⟨r, r1, r2⟩ := C24_template ⟨o'.single, o'.pair, t.tokenMap⟩ e (some p) false he
      (fun q hq => by injection hq with hq; exact hq ▸ hp)
      (fits _ _ _ (Or.inr ⟨rfl, eP⟩)) (Or.inl ⟨false, 0, by simp [TemplateProc.chosen, eP]⟩)
    have a1 := r2 .ids
    have a2 := r2 .tokens
    simp only [TemplateProc.chosen, eP, Option.isSome_some, if_true, List.flatMap_cons, List.flatMap_nil,
      pieceArr, Bool.false_eq_true, if_false, seqArr, Encoding.arr] at a1 a2
    exact ⟨r, r1, by simpa using a1, by simpa using a2⟩

example : PlainName "[CLS]".toList ∧ PlainName "[SEP]".toList ∧ "[CLS]".toList ≠ "[SEP]".toList ∧
    ∃ o, defaultTemplateObj = .ok o ∧ CountsRight o :=
  ⟨by unfold PlainName; decide, by unfold PlainName; decide, by decide,
   C122_default.imp fun _ h => ⟨h.1, h.2.2.2.1⟩⟩

/-! ### What the builder does not do -/

/-- Two builders of one processor. -/
example : ∃ h h1 h2 : Objs, (builderOf 0).calls h [.single (.str "$A".toList)] = .ok h1 ∧
    (builderOf 0).calls h1 [.single (.str "$B".toList)] = .ok h2 :=
  ⟨fun _ => ⟨[], [], 0, 0, some defaultTokens⟩, _, _, rfl, rfl⟩

/-- C122 fails: a processor that was built is changed by the calls that follow on any builder of the
same processor, and building changes the processor the builder was made from. -/
theorem C122_shared_violated (h h1 h2 : Objs) (p : Nat) (cs ds : List BuilderCall) (u v : TemplateArg)
    (e1 : (builderOf p).calls h cs = .ok h1) (e2 : (builderOf p).calls h1 ds = .ok h2)
    (hu : lastSingle cs = some u) (hv : lastSingle ds = some v) :
    Written u (h1 (builderOf p).build).single ∧ Written v (h2 (builderOf p).build).single ∧
    Written u (h1 p).single ∧ Written v (h2 p).single ∧ ∀ q, q ≠ p → h2 q = h q := by
  obtain ⟨o1, g1, g2⟩ := Res.bind_eq_ok.mp e1
  injection g2 with g2
  obtain ⟨o2, k1, k2⟩ := Res.bind_eq_ok.mp e2
  injection k2 with k2
  have hb : (builderOf p).ptr = p := rfl
  rw [hb] at g1 g2 k1 k2
  have p1 : h1 p = o1 := by rw [← g2]; simp
  have p2 : h2 p = o2 := by rw [← k2]; simp
  have l1 := (C122_last cs _ _ g1).1
  have l2 := (C122_last ds _ _ k1).1
  rw [hu] at l1
  rw [hv] at l2
  have hbd : (builderOf p).build = p := rfl
  rw [hbd, p1, p2]
  refine ⟨l1, l2, l1, l2, ?_⟩
  intro q hq
  rw [← k2, ← g2]
  simp [hq]

/-- C122 fails: setting a template that names a special token which is not in the table succeeds, and
every use with special tokens then ends without a result. -/
theorem C122_unknown_violated (o : TemplateObj) (t : Tokens) (ht : o.tokens = some t) (v : TemplateArg)
    (ps : List Piece) (hv : Written v ps) (id : Str) (ty : Int) (hid : .special id ty ∈ ps)
    (hno : t.tokenMap id = none) (e : Encoding) :
    ∃ o2, o.calls [.single v] = .ok o2 ∧ o2.tokens = some t ∧ ∀ r, (o2.toProcessor t).process e none true ≠ .ok r := by
  have hn := (newTemplate_iff v ps).mpr hv
  have e1 := update_some { o with single := ps } t ht
  have hc : o.calls [.single v] = TemplateObj.update { o with single := ps } := by
    rw [TemplateObj.calls]
    simp only [TemplateObj.call, TemplateObj.newSingle, hn]
    rw [e1]
    rfl
  refine ⟨_, hc.trans e1, ht, ?_⟩
  · intro r hr
    obtain ⟨encs, _, hr⟩ := Res.bind_eq_ok.mp hr
    obtain ⟨ap, hap, _⟩ := Res.bind_eq_ok.mp hr
    have hnone : ∀ (ps : List Piece), .special id ty ∈ ps → ∀ ap, applyTemplate t.tokenMap encs true ps ≠ .ok ap := by
      intro ps
      induction ps with
      | nil => intro hm; cases hm
      | cons q ps ih =>
        intro hm ap hap
        cases q with
        | seq b ty' =>
          unfold applyTemplate at hap
          simp only [Res.bind_eq_ok] at hap
          obtain ⟨_, _, _, _, es, hes, _⟩ := hap
          rcases List.mem_cons.mp hm with hm | hm
          · cases hm
          · exact ih hm es hes
        | special id' ty' =>
          unfold applyTemplate at hap
          simp only [if_true] at hap
          rcases List.mem_cons.mp hm with hm | hm
          · injection hm with a b
            subst a
            rw [hno] at hap
            cases hap
          · cases hx : t.tokenMap id' with
            | none => rw [hx] at hap; cases hap
            | some x =>
              rw [hx] at hap
              simp only [Res.bind_eq_ok] at hap
              obtain ⟨es, hes, _⟩ := hap
              exact ih hm es hes
    exact hnone ps hid ap hap

end Tok.Config
