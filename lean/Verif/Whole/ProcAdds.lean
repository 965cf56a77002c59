import Verif.Whole.PropsFileBert
import Verif.Whole.PropsFileBytes
import Verif.Whole.PropsProcessors
import Verif.Processor.PropsAligned

/-!
# What the post-processor of a file puts around a text
-/

namespace Tok.Whole

open Tok.PreTok Tok.Added Tok.Config

/-! ### Specification -/

/-- The template of a text with special tokens around it. -/
def surround (before after : List (Str × Int)) (ty : Int) : List Piece :=
  before.map (fun p => .special p.1 ty) ++ [.seq false ty] ++ after.map (fun p => .special p.1 ty)

/-- An object describes a post-processor that puts tokens (with their ids) before and after a text: BertProcessing and
RobertaProcessing put the token "cls" in front and the token "sep" at the end, ByteLevel puts nothing. -/
inductive PlainAdds : List (Str × Val) → List (Str × Int) → List (Str × Int) → Prop
  | bert (q : List (Str × Val)) (cls sep : Str × Int) : TypeIs q "BertProcessing" → TokenIs q "cls" cls → TokenIs q "sep" sep →
      PlainAdds q [cls] [sep]
  | roberta (q : List (Str × Val)) (cls sep : Str × Int) (a : Bool) : TypeIs q "RobertaProcessing" → TokenIs q "cls" cls →
      TokenIs q "sep" sep → get q "trim_offsets" = .bool true → get q "add_prefix_space" = .bool a → PlainAdds q [cls] [sep]
  | byteLevel (q : List (Str × Val)) (a t : Bool) : TypeIs q "ByteLevel" → FlagIs q "add_prefix_space" a →
      FlagIs q "trim_offsets" t → PlainAdds q [] []

/-- The same with TemplateProcessing, which puts the tokens that its template names. -/
inductive OneAdds : List (Str × Val) → List (Str × Int) → List (Str × Int) → Prop
  | plain (q : List (Str × Val)) (before after : List (Str × Int)) : PlainAdds q before after → OneAdds q before after
  | template (q : List (Str × Val)) (before after : List (Str × Int)) (ty : Int) (pair : List Piece) (toks : List SpecialToken) :
      TypeIs q "TemplateProcessing" → get q "single" = .arr ((surround before after ty).map pieceVal) →
      get q "pair" = .arr (pair.map pieceVal) → get q "special_tokens" = .obj (toks.map tokenVal) →
      (toks.map (·.id)).Nodup → (∀ p ∈ before ++ after, ⟨p.1, [p.2], [p.1]⟩ ∈ toks) → OneAdds q before after

/-- The same with Sequence: each post-processor puts its tokens around those of the ones before it. A template is the last one. -/
inductive ProcAdds : List (Str × Val) → List (Str × Int) → List (Str × Int) → Prop
  | one (q : List (Str × Val)) (before after : List (Str × Int)) : OneAdds q before after → ProcAdds q before after
  | sequence (q : List (Str × Val)) (xs : List (List (Str × Val) × List (Str × Int) × List (Str × Int))) (y : List (Str × Val))
      (before after : List (Str × Int)) : TypeIs q "Sequence" →
      get q "processors" = .arr ((xs.map (·.1) ++ [y]).map .obj) → (∀ x ∈ xs, PlainAdds x.1 x.2.1 x.2.2) → OneAdds y before after →
      ProcAdds q (before ++ xs.reverse.flatMap (·.2.1)) (xs.flatMap (·.2.2) ++ after)

/-- The post-processor puts these tokens (with their ids) before and after a text; nothing if there is none. -/
def Surrounds (o : Option (List (Str × Val))) (before after : List (Str × Int)) : Prop :=
  (o = none ∧ before = [] ∧ after = []) ∨ ∃ q, o = some q ∧ ProcAdds q before after

/-! ### Lemmas -/

/-- The special tokens that are put in, if they are asked for. -/
def asked (special : Bool) (l : List α) : List α := if special then l else []

theorem asked_append (special : Bool) (a b : List (Str × Int)) : asked special (a ++ b) = asked special a ++ asked special b := by
  cases special <;> rfl

theorem asked_flatMap (special : Bool) (l : List α) (g : α → List (Str × Int)) :
    asked special (l.flatMap g) = l.flatMap (fun x => asked special (g x)) := by
  cases special
  · simp [asked]
  · rfl

theorem pieceArr_specials {tab : TokenTable} {e : Encoding} {f : Field} (l : List (Str × Int)) (ty : Int)
    (h : ∀ p ∈ l, tab p.1 = some ⟨p.1, [p.2], [p.1]⟩) (g : Str × Int → f.Ty)
    (hg : ∀ p ∈ l, specialArr ⟨p.1, [p.2], [p.1]⟩ ty f = [g p]) (special : Bool) :
    (l.map (fun p => Piece.special p.1 ty)).flatMap (pieceArr tab e none special f) = (asked special l).map g := by
  cases special with
  | false =>
    rw [List.flatMap_map]
    simp [pieceArr, asked]
  | true =>
  simp only [asked, if_true]
  induction l with
  | nil => rfl
  | cons p l ih =>
    rw [List.map_cons, List.flatMap_cons, ih (fun q hq => h q (by simp [hq])) (fun q hq => hg q (by simp [hq])), List.map_cons]
    simp only [pieceArr, if_true, h p (by simp), hg p (by simp)]
    rfl

/-- The ids and tokens of `r` are those of `e` with tokens around. -/
def Around (before after : List (Str × Int)) (e r : Encoding) : Prop :=
  r.ids = before.map (·.2) ++ e.ids ++ after.map (·.2) ∧ r.tokens = before.map (·.1) ++ e.tokens ++ after.map (·.1)

theorem Around.trans {b a b' a' : List (Str × Int)} {e r s : Encoding} (h : Around b a e r) (k : Around b' a' r s) :
    Around (b' ++ b) (a ++ a') e s := by
  constructor
  · rw [k.1, h.1]; simp
  · rw [k.2, h.2]; simp

theorem roberta_ranges {rp : Roberta} {e r : Encoding} (h : rp.process e none true = .ok (some r)) : r.ranges = some [] := by
  unfold Roberta.process at h
  cases ht : rp.trimOffsets with
  | false => simp [ht] at h
  | true =>
    cases hp : processOffsetsDeep e rp.addPrefixSpace with
    | ok new =>
      simp only [ht, if_true, optMapRes, hp, Res.bind_ok, Bool.not_true, Bool.false_eq_true, if_false, Res.ok.injEq,
        Option.some.injEq] at h
      rw [← h]
      rfl
    | err => simp [ht, hp] at h
    | panic => simp [ht, hp] at h

theorem byteLevel_ranges (trim a special : Bool) (e : Encoding) (hf : Fresh e) (ha : e.Aligned)
    (ho : ∀ o ∈ e.overflowing, o.Aligned) {r : Encoding}
    (h : (byteLevelProcessor trim a).process e none special = .ok (some r)) : RangesOk r := by
  obtain ⟨p, q, l, r', h1, h2, h0, h3, h4, _⟩ := byteOne trim a 0 e hf ha ho
  suffices r = r' by rw [this]; exact h4
  cases trim with
  | false =>
    simp only [Bool.false_eq_true, if_false, Res.ok.injEq] at h2
    subst h2
    simp only [byteLevelProcessor, byteLevelProcess, prepareEncodings, h1, Res.bind_ok, Bool.false_eq_true, if_false,
      setIdsLoop, h0, h3] at h
    cases h; rfl
  | true =>
    simp only [if_true] at h2
    simp only [byteLevelProcessor, byteLevelProcess, prepareEncodings, h1, Res.bind_ok, if_true, mapRes, h2,
      setIdsLoop, h0, h3] at h
    cases h; rfl

theorem around_none (e : Encoding) : Around [] [] e e := ⟨by simp, by simp⟩

theorem plain_post {q : List (Str × Val)} {before after : List (Str × Int)} (h : PlainAdds q before after) :
    ∃ c, ProcDesc q c ∧ ∀ (special : Bool) (e : Encoding), Delivered e → ∃ r, (procFn c).process e none special = .ok (some r) ∧
      Delivered r ∧ Around (asked special before) (asked special after) e r := by
  cases h with
  | bert cls sep h1 h2 h3 =>
    refine ⟨_, .bert q sep cls h1 h3 h2, fun special e he => ?_⟩
    cases special
    · exact ⟨e, by rw [procFn]; rfl, he, around_none e⟩
    obtain ⟨r, k1, k2, k3, _⟩ := C22_bert_single (Bert.mk ⟨sep.1, sep.2⟩ ⟨cls.1, cls.2⟩) e
    refine ⟨r, by rw [procFn]; exact k1, ?_, k2 .ids, k2 .tokens⟩
    unfold Bert.process at k1
    cases k1
    refine ⟨?_, ?_, [], rfl, by intro p hp; cases hp⟩
    · intro f
      have := bert_special_aligned (Bert.mk ⟨sep.1, sep.2⟩ ⟨cls.1, cls.2⟩) e he.1 f
      cases f <;> exact this
    · simp [he.2.1]
  | roberta cls sep a h1 h2 h3 h4 h5 =>
    refine ⟨_, .roberta q sep cls true a h1 h3 h2 h4 h5, fun special e he => ?_⟩
    have ho : ∀ o ∈ e.overflowing, o.Aligned := by rw [he.2.1]; simp
    have htrim : ∀ t, Trimmed a e t → t.ids = e.ids ∧ t.tokens = e.tokens ∧ t.ranges = e.ranges ∧ t.overflowing = [] := by
      intro t k0
      obtain ⟨⟨d, d1, d2⟩, d5⟩ := k0
      obtain ⟨d', d3, d4, _, _, d6⟩ := processOffsets_trimmed e he.1 a
      rw [d3] at d1
      cases d1
      refine ⟨?_, ?_, ?_, ?_⟩
      · rw [d2]; exact d4 .ids (by simp)
      · rw [d2]; exact d4 .tokens (by simp)
      · rw [d2]; exact d6
      · rw [he.2.1] at d5
        cases h : t.overflowing with
        | nil => rfl
        | cons _ _ => rw [h] at d5; cases d5
    cases special
    · obtain ⟨t, k1, k0⟩ := processOffsetsDeep_ok e a he.1 ho
      obtain ⟨g1, g2, g3, g4⟩ := htrim t k0
      refine ⟨t, ?_, ⟨(k0.aligned he.1 ho).1, g4, by rw [g3]; exact he.2.2⟩, by simp [asked, g1], by simp [asked, g2]⟩
      rw [procFn]
      simp [Roberta.toProcessor, Roberta.process, k1, optMapRes, defaultProcess]
    obtain ⟨t, r, k0, k1, k2, k3, _⟩ := C23_roberta_single_partial (Roberta.mk ⟨sep.1, sep.2⟩ ⟨cls.1, cls.2⟩ true a) rfl e he.1 ho
    have hd := htrim t k0
    have hr := roberta_deepAligned (Roberta.mk ⟨sep.1, sep.2⟩ ⟨cls.1, cls.2⟩ true a) true (.mk _ he.1 (by rw [he.2.1]; simp)) (by simp) k1
    refine ⟨r, by rw [procFn]; exact k1, ⟨hr.aligned, ?_, ?_⟩, ?_, ?_⟩
    · rw [hd.2.2.2] at k3
      cases k3' : r.overflowing with
      | nil => rfl
      | cons _ _ => rw [k3'] at k3; cases k3
    · exact ⟨[], roberta_ranges k1, by intro p hp; cases hp⟩
    · rw [← hd.1]; exact k2 .ids
    · rw [← hd.2.1]; exact k2 .tokens
  | byteLevel a t h1 h2 h3 =>
    refine ⟨_, .byteLevel q a t h1 h2 h3, fun special e he => ?_⟩
    have ho : ∀ o ∈ e.overflowing, o.Aligned := by rw [he.2.1]; simp
    obtain ⟨r, k1, k2, _⟩ := C102_single t a special e he.usable.2.2 he.1 ho
    have hr := byteLevel_deepAligned t a (.mk _ he.1 (by rw [he.2.1]; simp)) (by simp) k1
    refine ⟨r, by rw [procFn]; exact k1, ⟨hr.aligned, ?_, ?_⟩, ?_, ?_⟩
    · have := k2.parts
      rw [he.2.1] at this
      cases h : r.overflowing with
      | nil => rfl
      | cons _ _ => rw [h] at this; cases this
    · exact (byteLevel_ranges t a special e he.usable.2.2 he.1 ho k1).ranges
    · simpa [Encoding.arr, seqArr, asked] using k2.same .ids (by simp)
    · simpa [Encoding.arr, seqArr, asked] using k2.same .tokens (by simp)

theorem one_post {q : List (Str × Val)} {before after : List (Str × Int)} (h : OneAdds q before after) :
    ∃ c, ProcDesc q c ∧ ∀ (special : Bool) (e : Encoding), Delivered e → ∃ r, (procFn c).process e none special = .ok (some r) ∧
      Around (asked special before) (asked special after) e r := by
  cases h with
  | plain h =>
    obtain ⟨c, h1, h2⟩ := plain_post h
    refine ⟨c, h1, fun special e he => ?_⟩
    obtain ⟨r, k1, _, k2⟩ := h2 special e he
    exact ⟨r, k1, k2⟩
  | template ty pair toks ht h1 h2 h3 h4 h5 =>
    obtain ⟨tp, g1, g2, g3, g4, g5⟩ := C52_processor q _ pair toks h1 h2 h3 h4
    refine ⟨.template tp, .template q tp ht g1, fun special e he => ?_⟩
    have hc : tp.chosen (none : Option Encoding).isSome = before.map (fun p => Piece.special p.1 ty) ++ [.seq false ty] ++
        after.map (fun p => Piece.special p.1 ty) := by
      simp only [TemplateProc.chosen, Option.isSome_none, Bool.false_eq_true, if_false, g2, surround]
    have htab : ∀ p ∈ before ++ after, tp.tab p.1 = some ⟨p.1, [p.2], [p.1]⟩ := fun p hp => g4 _ (h5 p hp)
    obtain ⟨r, k1, k2⟩ := C24_template tp e none special he.usable.2.2 (by simp)
      (by
        rw [hc]
        refine ⟨by intro ty h; simp at h, fun _ id ty h => ?_⟩
        simp only [List.mem_append, List.mem_map, List.mem_singleton, Piece.special.injEq, reduceCtorEq, or_false] at h
        rcases h with ⟨p, hp, rfl, _⟩ | ⟨p, hp, rfl, _⟩
        · exact ⟨_, htab p (by simp [hp])⟩
        · exact ⟨_, htab p (by simp [hp])⟩)
      (by
        rw [hc]
        exact .inl ⟨false, ty, by simp⟩)
    rw [hc] at k2
    have hb : ∀ p ∈ before, tp.tab p.1 = some ⟨p.1, [p.2], [p.1]⟩ := fun p hp => htab p (by simp [hp])
    have ha : ∀ p ∈ after, tp.tab p.1 = some ⟨p.1, [p.2], [p.1]⟩ := fun p hp => htab p (by simp [hp])
    refine ⟨r, by rw [procFn]; exact k1, ?_, ?_⟩
    · have := k2 .ids
      rw [List.flatMap_append, List.flatMap_append, pieceArr_specials (f := .ids) before ty hb (fun p => p.2) (fun _ _ => rfl) special,
        pieceArr_specials (f := .ids) after ty ha (fun p => p.2) (fun _ _ => rfl) special] at this
      simpa [pieceArr, seqArr, Encoding.arr] using this
    · have := k2 .tokens
      rw [List.flatMap_append, List.flatMap_append, pieceArr_specials (f := .tokens) before ty hb (fun p => p.1) (fun _ _ => rfl) special,
        pieceArr_specials (f := .tokens) after ty ha (fun p => p.1) (fun _ _ => rfl) special] at this
      simpa [pieceArr, seqArr, Encoding.arr] using this

theorem seq_post {y : List (Str × Val)} {before after : List (Str × Int)} (hy : OneAdds y before after)
    (xs : List (List (Str × Val) × List (Str × Int) × List (Str × Int))) (h : ∀ x ∈ xs, PlainAdds x.1 x.2.1 x.2.2) :
    ∃ cs : List ProcCfg, (xs.map (·.1) ++ [y]).length = cs.length ∧
      (∀ (i : Nat) x c, (xs.map (·.1) ++ [y])[i]? = some x → cs[i]? = some c → ProcDesc x c) ∧
      ∀ (special : Bool) (e : Encoding), Delivered e → ∃ r, sequenceProcess (procFns cs) e none special = .ok (some r) ∧
        Around (asked special (before ++ xs.reverse.flatMap (·.2.1))) (asked special (xs.flatMap (·.2.2) ++ after)) e r := by
  induction xs with
  | nil =>
    obtain ⟨c, h1, h2⟩ := one_post hy
    refine ⟨[c], rfl, ?_, fun special e he => ?_⟩
    · intro i x d hx hd
      cases i with
      | zero => cases hx; cases hd; exact h1
      | succ i => cases hd
    · obtain ⟨r, k1, k2⟩ := h2 special e he
      refine ⟨r, ?_, by simpa using k2⟩
      simp only [procFns, sequenceProcess, k1, Res.bind_ok]
  | cons x xs ih =>
    obtain ⟨cs, i1, i2, i3⟩ := ih (fun z hz => h z (by simp [hz]))
    obtain ⟨c, h1, h2⟩ := plain_post (h x (by simp))
    refine ⟨c :: cs, by simpa using i1, ?_, fun special e he => ?_⟩
    · intro i z d hz hd
      cases i with
      | zero => cases hz; cases hd; exact h1
      | succ i => exact i2 i z d (by simpa using hz) (by simpa using hd)
    · obtain ⟨r, k1, k2, k3⟩ := h2 special e he
      obtain ⟨r', l1, l2⟩ := i3 special r k2
      refine ⟨r', ?_, ?_⟩
      · simp only [procFns, sequenceProcess, k1, Res.bind_ok, l1]
      · have := k3.trans l2
        simpa [asked_append, asked_flatMap] using this

theorem proc_post {q : List (Str × Val)} {before after : List (Str × Int)} (h : ProcAdds q before after) :
    ∃ c, ProcDesc q c ∧ ∀ (special : Bool) (e : Encoding), Delivered e → ∃ r, (procFn c).process e none special = .ok (some r) ∧
      Around (asked special before) (asked special after) e r := by
  cases h with
  | one _ _ h => exact one_post h
  | sequence xs y b a h1 h2 h3 h4 =>
    obtain ⟨cs, k1, k2, k3⟩ := seq_post h4 xs h3
    refine ⟨.sequence cs, .sequence q _ cs h1 h2 k1 k2, fun special e he => ?_⟩
    obtain ⟨r, l1, l2⟩ := k3 special e he
    exact ⟨r, by rw [procFn]; exact l1, l2⟩

/-- What `PostProcess` gives with the post-processor of a file. -/
theorem surrounds_asked {o : Option (List (Str × Val))} {before after : List (Str × Int)} (h : Surrounds o before after) :
    ∃ pc, fromSection createProc o = .ok pc ∧ ∀ (special : Bool) (rows : List Row), ∃ r,
      postProcess none (pc.map procFn) none (ofRows rows 0) none special = .ok (some r) ∧
      Around (asked special before) (asked special after) (ofRows rows 0) r := by
  rcases h with ⟨rfl, rfl, rfl⟩ | ⟨q, rfl, h⟩
  · exact ⟨none, rfl, fun special rows => ⟨ofRows rows 0, rfl, by cases special <;> exact around_none _⟩⟩
  · obtain ⟨c, h1, h2⟩ := proc_post h
    refine ⟨some c, fromSection_some (C70_postProcessor q _ h1), fun special rows => ?_⟩
    obtain ⟨r, k1, k2⟩ := h2 special _ (ofRows_delivered rows 0)
    refine ⟨r, ?_, k2⟩
    simp only [Option.map_some, postProcess, postTruncate, Res.bind_ok, k1]

theorem surrounds_post {o : Option (List (Str × Val))} {before after : List (Str × Int)} (h : Surrounds o before after) :
    ∃ pc, fromSection createProc o = .ok pc ∧ ∀ (rows : List Row), ∃ r,
      postProcess none (pc.map procFn) none (ofRows rows 0) none true = .ok (some r) ∧
      r.ids = before.map (·.2) ++ (ofRows rows 0).ids ++ after.map (·.2) ∧
      r.tokens = before.map (·.1) ++ (ofRows rows 0).tokens ++ after.map (·.1) := by
  obtain ⟨pc, h1, h2⟩ := surrounds_asked h
  exact ⟨pc, h1, fun rows => h2 true rows⟩

end Tok.Whole
