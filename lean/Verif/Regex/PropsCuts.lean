import Verif.Regex.Runs

/-!
# C72: where the pre-tokenizers cut

`runs`, `together`, `pieces` (Verif/Norm/Runs.lean) say where a text is cut.
-/

namespace Tok.Regex

open Tok.Norm Tok.PreTok

/-! ### Specification -/

/-- The splits hold these texts and tokens; the texts without tokens are not empty, and the
normalized strings are well-formed. -/
structure Holding (pt : PTS) (ts : List (Str × Option (List Token))) : Prop where
  texts : pt.splits.map (fun sp => (sp.normalized.normalized, sp.tokens)) = ts.map (fun t => (encStr t.1, t.2))
  filled : ∀ t ∈ ts, t.2 = none → t.1 ≠ []
  wf : ∀ sp ∈ pt.splits, WF sp.normalized

/-- A text with tokens stays; one without is replaced by the pieces that `g` gives. -/
def cutOne (g : Str → List Str) (t : Str × Option (List Token)) : List (Str × Option (List Token)) :=
  match t.2 with
  | some k => [(t.1, some k)]
  | none => (g t.1).map (fun w => (w, none))

/-- The pre-tokenizer replaces every text without tokens by the pieces `g` gives, in order, and
changes nothing else. -/
def CutsTexts (p : PTS → Res PTS) (g : Str → List Str) : Prop :=
  ∀ pt ts, Holding pt ts → ∃ pt', p pt = .ok pt' ∧ pt'.original = pt.original ∧
    Holding pt' (ts.flatMap (cutOne g))

/-! ### Helpers -/

theorem keepPieces_all (xs : List NStr) (h : ∀ x ∈ xs, x.normalized ≠ []) :
    keepPieces (xs.map (fun x => ⟨some x, none⟩)) = .ok (xs.map (fun x => ⟨x, none⟩)) := by
  induction xs with
  | nil => rfl
  | cons x xs ih =>
    simp only [List.map_cons, keepPieces, ih (fun y hy => h y (by simp [hy])), Res.bind_ok, h x (by simp), if_false]

/-- The closure given to `Split` cuts a text as `g` does. -/
def CutsOne (fn : NStr → Res (List SplitIdx)) (g : Str → List Str) : Prop :=
  ∀ x m, WF x → x.normalized = encStr m → m ≠ [] → (∀ w ∈ g m, w ≠ []) ∧
    ∃ xs : List NStr, fn x = .ok (xs.map (fun x => ⟨some x, none⟩)) ∧ xs.map (·.normalized) = (g m).map encStr ∧ ∀ x ∈ xs, WF x

theorem cutsTexts_split {fn : NStr → Res (List SplitIdx)} {g : Str → List Str} (h : CutsOne fn g) :
    CutsTexts (fun pt => pt.split (fun _ n => fn n)) g := by
  have key : ∀ (ss : List Split) (ts : List (Str × Option (List Token))) (i : Nat),
      ss.map (fun sp => (sp.normalized.normalized, sp.tokens)) = ts.map (fun t => (encStr t.1, t.2)) →
      (∀ t ∈ ts, t.2 = none → t.1 ≠ []) → (∀ sp ∈ ss, WF sp.normalized) →
      ∃ ss', splitLoop (fun _ n => fn n) ss i = .ok ss' ∧
        ss'.map (fun sp => (sp.normalized.normalized, sp.tokens)) =
          (ts.flatMap (cutOne g)).map (fun t => (encStr t.1, t.2)) ∧
        (∀ t ∈ ts.flatMap (cutOne g), t.2 = none → t.1 ≠ []) ∧
        (∀ sp ∈ ss', WF sp.normalized) := by
    intro ss
    induction ss with
    | nil =>
      intro ts i ht _ _
      have : ts = [] := by simpa using ht.symm
      subst this
      exact ⟨[], rfl, rfl, by simp, by simp⟩
    | cons sp ss ih =>
      intro ts i ht hf hw
      cases ts with
      | nil => cases ht
      | cons t ts =>
        rw [List.map_cons, List.map_cons, List.cons.injEq, Prod.mk.injEq] at ht
        obtain ⟨⟨e1, e2⟩, e3⟩ := ht
        obtain ⟨ss', h1, h2, h3, h4⟩ := ih ts (i + 1) e3 (fun t ht => hf t (by simp [ht])) (fun sp hsp => hw sp (by simp [hsp]))
        cases hk : sp.tokens with
        | some k =>
          rw [hk] at e2
          refine ⟨sp :: ss', by simp only [splitLoop, hk, h1, Res.bind_ok], ?_, ?_, ?_⟩
          · rw [List.map_cons, h2, List.flatMap_cons, cutOne, ← e2]
            simp [e1, hk]
          · intro x hx
            rw [List.flatMap_cons, cutOne, ← e2] at hx
            rcases List.mem_append.mp hx with hx | hx
            · simp only [List.mem_singleton] at hx
              subst hx
              simp
            · exact h3 x hx
          · intro x hx
            rcases List.mem_cons.mp hx with rfl | hx
            · exact hw x (by simp)
            · exact h4 x hx
        | none =>
          rw [hk] at e2
          obtain ⟨g1, xs, f1, f2, f3⟩ := h sp.normalized t.1 (hw sp (by simp)) e1 (hf t (by simp) e2.symm)
          have hne : ∀ x ∈ xs, x.normalized ≠ [] := by
            intro x hx
            have : x.normalized ∈ (g t.1).map encStr := by rw [← f2]; exact List.mem_map_of_mem hx
            rw [List.mem_map] at this
            obtain ⟨w, hw, e⟩ := this
            rw [← e]
            exact enc_ne (g1 w hw)
          refine ⟨xs.map (fun x => ⟨x, none⟩) ++ ss', by simp only [splitLoop, hk, f1, h1, Res.bind_ok, keepPieces_all xs hne], ?_, ?_, ?_⟩
          · rw [List.map_append, h2, List.flatMap_cons, cutOne, ← e2, List.map_append]
            congr 1
            simp only [List.map_map, Function.comp_def]
            have := congrArg (List.map (fun w => (w, (none : Option (List Token))))) f2
            simpa [List.map_map, Function.comp_def] using this
          · intro x hx
            rw [List.flatMap_cons, cutOne, ← e2] at hx
            rcases List.mem_append.mp hx with hx | hx
            · simp only [List.mem_map] at hx
              obtain ⟨w, hw, rfl⟩ := hx
              intro _
              exact g1 w hw
            · exact h3 x hx
          · intro x hx
            rcases List.mem_append.mp hx with hx | hx
            · rw [List.mem_map] at hx
              obtain ⟨y, hy, rfl⟩ := hx
              exact f3 y hy
            · exact h4 x hx
  intro pt ts hh
  obtain ⟨ss', h1, h2, h3, h4⟩ := key pt.splits ts 0 hh.texts hh.filled hh.wf
  exact ⟨{ pt with splits := ss' }, by simp only [PTS.split, h1, Res.bind_ok], rfl, ⟨h2, h3, h4⟩⟩

theorem pieces_ne (f : Char → Bool) (b : Behavior) (s : Str) : ∀ w ∈ pieces f b s, w ≠ [] := by
  intro w hw
  unfold pieces at hw
  split at hw
  · exact runs_ne _ _ w (List.mem_filter.mp hw).1
  · exact runs_ne _ _ w hw

theorem cutsOne_fn (f : Char → Bool) (b : Behavior) : CutsOne (cutWith (.fn f) b) (pieces f b) := by
  intro x m hw hm hne
  obtain ⟨xs, h1, h2, h3⟩ := split_fn_pieces hw hm hne f b
  exact ⟨pieces_ne f b m, xs, by simp only [cutWith, h1, Res.bind_ok], h2, h3⟩

/-! ### The properties -/

/-- What `runs` is: the text cut into non-empty pieces; adjacent characters of a piece are held together, the last
of a piece and the first of the next are not. -/
theorem C72_runs (r : Char → Char → Bool) (s : Str) :
    (runs r s).flatten = s ∧ (∀ w ∈ runs r s, w ≠ []) ∧ (∀ w ∈ runs r s, Linked r w) ∧
      ∀ us v w ws a b, runs r s = us ++ [v ++ [a]] ++ (b :: w) :: ws → r a b = false := by
  refine ⟨runs_flatten r s, runs_ne r s, runs_linked r s, ?_⟩
  induction s with
  | nil => intro us v w ws a b h; simp [runs] at h
  | cons c s ih =>
    intro us v w ws a b h
    rcases runs_cons r c s with ⟨rfl, h'⟩ | ⟨d, s', q, qs, e, h1, h2⟩
    · rw [h'] at h
      cases us with
      | nil => simp at h
      | cons u us => simp at h
    · rw [h1] at ih
      rw [h2] at h
      split at h
      · cases us with
        | nil =>
          simp only [List.nil_append, List.cons_append, List.cons.injEq] at h
          obtain ⟨e1, e2⟩ := h
          cases v with
          | nil => simp at e1
          | cons c' v =>
            rw [List.cons_append, List.cons.injEq] at e1
            exact ih [] v w ws a b (by rw [e1.2, e2]; rfl)
        | cons u us =>
          simp only [List.cons_append, List.cons.injEq] at h
          exact ih ((d :: q) :: us) v w ws a b (by rw [h.2]; rfl)
      · next hcd =>
        cases us with
        | nil =>
          simp only [List.nil_append, List.cons_append, List.cons.injEq] at h
          obtain ⟨e1, ⟨e2, _⟩, _⟩ := h
          have : v = [] ∧ a = c := by
            cases v with
            | nil => simp at e1; exact ⟨rfl, e1.symm⟩
            | cons x v => simp at e1
          rw [this.2, ← e2]
          simpa using hcd
        | cons u us =>
          simp only [List.cons_append, List.cons.injEq] at h
          exact ih us v w ws a b h.2

/-- C72 (Digits): individual digits are pieces of their own; otherwise digits are kept together. -/
theorem C72_digits (isNumber : Char → Bool) (individual : Bool) :
    CutsTexts (digits isNumber individual)
      (runs (fun a b => if individual then !isNumber a && !isNumber b else isNumber a == isNumber b)) := by
  cases individual with
  | true => exact cutsTexts_split (cutsOne_fn isNumber .isolated)
  | false => exact cutsTexts_split (cutsOne_fn isNumber .contiguous)

/-- C72 (Punctuation): cut as the behaviour says. -/
theorem C72_punctuation (isPunc : Char → Bool) (b : Behavior) : CutsTexts (punctuation isPunc b) (pieces isPunc b) :=
  cutsTexts_split (cutsOne_fn isPunc b)

/-- C72 (Split by a class of characters). -/
theorem C72_split_class (f : Char → Bool) (b : Behavior) : CutsTexts (splitPre (.fn f) b false) (pieces f b) :=
  cutsTexts_split (cutsOne_fn f b)

/-- C72 (CharDelimiterSplit): the maximal parts without the delimiter. -/
theorem C72_delimiter (d : Char) :
    CutsTexts (delimiterSplit d) (fun s => (runs (fun a b => !(a == d) && !(b == d)) s).filter (fun w => !w.any (· == d))) :=
  cutsTexts_split (cutsOne_fn (· == d) .removed)

/-- C72 (WhitespaceSplit): the maximal parts without white space. -/
theorem C72_whitespaceSplit (isWs : Char → Bool) :
    CutsTexts (whitespaceSplit isWs) (fun s => (runs (fun a b => !isWs a && !isWs b) s).filter (fun w => !w.any isWs)) :=
  cutsTexts_split (cutsOne_fn isWs .removed)

theorem filter_head (r : Char → Char → Bool) (keep : Char → Bool) (hk : ∀ a b, r a b = true → keep a = keep b) (s : Str) (v : Bool) :
    (runs r s).filter (fun w => headKeep keep w == v) = (runs r s).filter (fun w => w.all (fun c => keep c == v)) := by
  apply List.filter_congr
  intro w hw
  have hl := runs_linked r s w hw
  have hne := runs_ne r s w hw
  clear hw
  induction w with
  | nil => exact absurd rfl hne
  | cons c w ih =>
    cases w with
    | nil => simp [headKeep]
    | cons d w =>
      have := ih hl.2 (by simp)
      have hcd := hk c d hl.1
      rw [List.all_cons, ← this]
      simp [headKeep, hcd]

/-- C72 (Whitespace, `\w+|[^\w\s]+`): the maximal parts of word characters, and of characters that are neither
that nor white space. -/
theorem C72_whitespace :
    CutsTexts (whitespace whitespaceRe.engine) (fun s =>
      (runs (fun a b => isW a == isW b && isS a == isS b) s).filter (fun w => w.all (fun c => !isS c))) := by
  apply cutsTexts_split
  intro x m hw hm hne
  refine ⟨fun w h => runs_ne _ _ w (List.mem_filter.mp h).1, ?_⟩
  obtain ⟨xs, h1, h2, h3⟩ := split_runs whitespace_runs (fun a b ha hb => by
    simp only [Bool.not_eq_false'] at ha hb
    have h1 : isW a = false := by
      cases h : isW a with
      | false => rfl
      | true => rw [isW_isS a h] at ha; cases ha
    have h2 : isW b = false := by
      cases h : isW b with
      | false => rfl
      | true => rw [isW_isS b h] at hb; cases hb
    simp [sameKind, h1, h2, ha, hb]) hw hm hne true
  refine ⟨xs, ?_, ?_, h3⟩
  · rw [if_pos rfl] at h1
    simp only [cutWith, h1, Res.bind_ok]
  · rw [h2, filter_head sameKind _ whitespace_runs.1 m true]
    simp only [beq_true]
    rfl

theorem bertInner_texts (isPunc : Char → Bool) (ws : List Str) : ∀ xs : List NStr, (∀ w ∈ ws, w ≠ []) →
    xs.map (·.normalized) = ws.map encStr → (∀ x ∈ xs, WF x) →
    ∃ ys, bertInner isPunc xs = .ok ys ∧ ys.map (·.normalized) = (ws.flatMap (pieces isPunc .isolated)).map encStr ∧ ∀ y ∈ ys, WF y := by
  induction ws with
  | nil =>
    intro xs _ h _
    have : xs = [] := by simpa using h
    subst this
    exact ⟨[], rfl, rfl, by simp⟩
  | cons w ws ih =>
    intro xs hne h hw
    cases xs with
    | nil => cases h
    | cons x xs =>
      rw [List.map_cons, List.map_cons, List.cons.injEq] at h
      obtain ⟨ys, h1, h2, h3⟩ := ih xs (fun w h => hne w (by simp [h])) h.2 (fun x h => hw x (by simp [h]))
      obtain ⟨zs, k1, k2, k3⟩ := split_fn_pieces (hw x (by simp)) h.1 (hne w (by simp)) isPunc .isolated
      refine ⟨zs ++ ys, by simp only [bertInner, k1, h1, Res.bind_ok], ?_, ?_⟩
      · rw [List.map_append, k2, h2, List.flatMap_cons, List.map_append]
      · intro y hy
        rcases List.mem_append.mp hy with hy | hy
        · exact k3 y hy
        · exact h3 y hy

/-- C72 (BertPreTokenizer): the maximal parts without white space, cut around every punctuation character. -/
theorem C72_bert (isPunc : Char → Bool) :
    CutsTexts (bertPre bertRe.engine isPunc) (fun s =>
      ((runs (fun a b => isS a == isS b) s).filter (fun w => w.all (fun c => !isS c))).flatMap
        (runs (fun a b => !isPunc a && !isPunc b))) := by
  apply cutsTexts_split
  intro x m hw hm hne
  refine ⟨?_, ?_⟩
  · intro w h
    rw [List.mem_flatMap] at h
    obtain ⟨v, _, h⟩ := h
    exact runs_ne _ _ w h
  · obtain ⟨xs, h1, h2, h3⟩ := split_runs bert_runs (fun a b ha hb => by simp [ha, hb]) hw hm hne false
    rw [filter_head _ _ bert_runs.1 m false] at h2
    obtain ⟨ys, k1, k2, k3⟩ := bertInner_texts isPunc _ xs (fun w h => runs_ne _ _ w (List.mem_filter.mp h).1) h2 h3
    refine ⟨ys, ?_, ?_, k3⟩
    · simp only [Bool.false_eq_true, if_false] at h1
      simp only [bertCut, h1, k1, Res.bind_ok]
    · rw [k2]
      simp only [beq_false]
      rfl

/-- C72 (Sequence): the second cuts the pieces of the first. -/
theorem C72_sequence (p q : PTS → Res PTS) (g h : Str → List Str) (hp : CutsTexts p g) (hq : CutsTexts q h) :
    CutsTexts (sequencePre [p, q]) (fun s => (g s).flatMap h) := by
  intro pt ts hh
  obtain ⟨pt1, h1, o1, hh1⟩ := hp pt ts hh
  obtain ⟨pt2, h2, o2, hh2⟩ := hq pt1 _ hh1
  refine ⟨pt2, by simp only [sequencePre, h1, h2, Res.bind_ok], by rw [o2, o1], ?_⟩
  have e : ∀ t : Str × Option (List Token), (cutOne g t).flatMap (cutOne h) = cutOne (fun s => (g s).flatMap h) t := by
    intro t
    obtain ⟨a, b⟩ := t
    cases b with
    | some k => simp [cutOne]
    | none => simp only [cutOne, List.flatMap_map, List.map_flatMap]
  rw [List.flatMap_assoc] at hh2
  simpa only [e] using hh2

/-- A new text. -/
theorem C72_new (s : Str) (hs : s ≠ []) : Holding (newPTS (encStr s)) [(s, none)] := by
  refine ⟨?_, by simp [hs], ?_⟩
  · simp [newPTS, newNStr]
  · intro sp hsp
    simp only [newPTS, List.mem_singleton] at hsp
    subst hsp
    exact newNStr_wf s

example : runs (fun a b => if false then !a.isDigit && !b.isDigit else a.isDigit == b.isDigit) "ab12c3".toList =
    ["ab".toList, "12".toList, "c".toList, "3".toList] := by decide +kernel
example : runs (fun a b => if true then !a.isDigit && !b.isDigit else a.isDigit == b.isDigit) "ab12c3".toList =
    ["ab".toList, "1".toList, "2".toList, "c".toList, "3".toList] := by decide +kernel
example : pieces (· == '-') .mergedWithPrevious "a--b-c".toList = ["a-", "-", "b-", "c"].map String.toList := by decide +kernel
example : pieces (· == '-') .mergedWithNext "a--b-c".toList = ["a", "-", "-b", "-c"].map String.toList := by decide +kernel
example : pieces (· == '-') .removed "a--b-c".toList = ["a", "b", "c"].map String.toList := by decide +kernel
example : (runs (fun a b => isW a == isW b && isS a == isS b) "ab_1 (é)!  x".toList).filter (fun w => w.all (fun c => !isS c)) =
    ["ab_1", "(é)!", "x"].map String.toList := by decide +kernel
example : ((runs (fun a b => isS a == isS b) "it's  (so)".toList).filter (fun w => w.all (fun c => !isS c))).flatMap
    (runs (fun a b => !(a == '\'' || a == '(' || a == ')') && !(b == '\'' || b == '(' || b == ')'))) =
    ["it", "'", "s", "(", "so", ")"].map String.toList := by decide +kernel
example : (gpt2Re Char.isAlpha Char.isDigit).engine (encStr "it's  so, 12".toList) = [(0, 2), (2, 4), (5, 8), (8, 9), (9, 12)] := by
  decide +kernel

end Tok.Regex
