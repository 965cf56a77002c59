import Verif.Whole.ProcAdds
import Verif.Whole.PropsFilePairs

/-!
# What the post-processor of a file makes of a text that was cut
-/

namespace Tok.Whole

open Tok.PreTok Tok.Added Tok.Config

/-- `Around`, and nothing is masked if nothing was masked before. -/
def Encloses (before after : List (Str × Int)) (e r : Encoding) : Prop :=
  Around before after e r ∧ (e.attentionMask = List.replicate e.ids.length 1 → r.attentionMask = List.replicate r.ids.length 1)

theorem Encloses.trans {b a b' a' : List (Str × Int)} {e r s : Encoding} (h : Encloses b a e r) (k : Encloses b' a' r s) :
    Encloses (b' ++ b) (a ++ a') e s := ⟨h.1.trans k.1, fun hm => k.2 (h.2 hm)⟩

theorem encloses_none (e : Encoding) : Encloses [] [] e e := ⟨around_none e, id⟩

theorem rangesOk_fresh {e : Encoding} (h : RangesOk e) : Fresh e := by
  cases h with
  | mk _ l h1 h2 h3 =>
    refine ⟨⟨l, h1, h2⟩, ?_⟩
    intro o ho
    cases h3 o ho with
    | mk _ l' g1 g2 g3 => exact ⟨g3, .inl ⟨l', g1, g2⟩⟩

theorem trimmed_usable {a : Bool} {e t : Encoding} (he : Usable e) (h : Trimmed a e t) :
    Usable t ∧ t.ids = e.ids ∧ t.tokens = e.tokens ∧ t.attentionMask = e.attentionMask := by
  obtain ⟨h1, h2⟩ := h.aligned he.1 he.2.1
  obtain ⟨⟨d, d1, d2⟩, d5⟩ := h
  obtain ⟨d', d3, d4, _, _, d6⟩ := processOffsets_trimmed e he.1 a
  rw [d3] at d1
  cases d1
  refine ⟨⟨h1, h2, ?_, ?_⟩, ?_, ?_, ?_⟩
  · rw [d2]
    dsimp only
    rw [d6]
    exact he.2.2.1
  · intro o ho
    obtain ⟨x, hx, hxo⟩ := forall₂_mem_right d5 ho
    obtain ⟨o', e1, e2, _, e4, e5⟩ := processOffsets_trimmed x (he.2.1 x hx) a
    rw [e1] at hxo
    cases hxo
    obtain ⟨f1, f2⟩ := he.2.2.2 x hx
    have := e2 .ids (by simp)
    simp only [Encoding.arr] at this
    rw [e4, e5, this]
    exact ⟨f1, f2⟩
  · rw [d2]; exact d4 .ids (by simp)
  · rw [d2]; exact d4 .tokens (by simp)
  · rw [d2]; exact d4 .attentionMask (by simp)

theorem ones_around (n m : Nat) (h : m = n + 2) : [(1 : Int)] ++ List.replicate n 1 ++ [1] = List.replicate m 1 := by
  subst h
  rw [List.replicate_succ, List.replicate_succ']
  rfl

theorem decorated_usable {e r : Encoding} {f : Encoding → Encoding} (he : Usable e) (hf : ∀ e, e.Aligned → (f e).Aligned)
    (hr : r = { f e with overflowing := e.overflowing.map f }) (h1 : ∀ e, (f e).ranges = some []) (h2 : ∀ e, (f e).overflowing = []) :
    Usable r := by
  subst hr
  refine ⟨?_, ?_, rangesOk_fresh (rangesOk_node _ (h1 e) ?_)⟩
  · intro g
    have := hf e he.1 g
    cases g <;> exact this
  · intro o ho
    obtain ⟨x, hx, rfl⟩ := List.mem_map.mp ho
    exact hf x (he.2.1 x hx)
  · intro o ho
    obtain ⟨x, hx, rfl⟩ := List.mem_map.mp ho
    exact rangesOk_leaf _ (h1 x) (h2 x)

/-- The post-processor puts so many tokens as it says, and it can be used for a text that was cut. -/
def Puts (P : PostProcessor) (before after : List (Str × Int)) : Prop :=
  P.addedTokens false = before.length + after.length ∧
  ∀ (special : Bool) (e : Encoding), Usable e → ∃ r, P.process e none special = .ok (some r) ∧
    Encloses (asked special before) (asked special after) e r

theorem plain_cut {q : List (Str × Val)} {before after : List (Str × Int)} (h : PlainAdds q before after) :
    ∃ c, ProcDesc q c ∧ (procFn c).addedTokens false = before.length + after.length ∧
      ∀ (special : Bool) (e : Encoding), Usable e → ∃ r, (procFn c).process e none special = .ok (some r) ∧
        Usable r ∧ Encloses (asked special before) (asked special after) e r := by
  cases h with
  | bert cls sep h1 h2 h3 =>
    refine ⟨_, .bert q sep cls h1 h3 h2, by rw [procFn]; rfl, fun special e he => ?_⟩
    cases special
    · exact ⟨e, by rw [procFn]; rfl, he, encloses_none e⟩
    obtain ⟨r, k1, k2, k3, _⟩ := C22_bert_single (Bert.mk ⟨sep.1, sep.2⟩ ⟨cls.1, cls.2⟩) e
    refine ⟨r, by rw [procFn]; exact k1, ?_, ⟨k2 .ids, k2 .tokens⟩, fun _ => ?_⟩
    · unfold Bert.process at k1
      cases k1
      exact decorated_usable he (bert_special_aligned _) rfl (fun _ => rfl) (fun _ => rfl)
    · have l1 := k2 .ids
      have l2 := k2 .attentionMask
      simp only [Encoding.arr, bertSingle, plainArr, specialEntry] at l1 l2
      rw [l1, l2]
      exact ones_around _ _ (by simp)
  | roberta cls sep a h1 h2 h3 h4 h5 =>
    refine ⟨_, .roberta q sep cls true a h1 h3 h2 h4 h5, by rw [procFn]; rfl, fun special e he => ?_⟩
    cases special
    · obtain ⟨t, k1, k0⟩ := processOffsetsDeep_ok e a he.1 he.2.1
      obtain ⟨g0, g1, g2, g3⟩ := trimmed_usable he k0
      refine ⟨t, ?_, g0, ⟨by simp [asked, g1], by simp [asked, g2]⟩, fun hm => by rw [g3, g1, hm]⟩
      rw [procFn]
      simp [Roberta.toProcessor, Roberta.process, k1, optMapRes, defaultProcess]
    obtain ⟨t, k1, k0⟩ := processOffsetsDeep_ok e a he.1 he.2.1
    obtain ⟨g0, g1, g2, g3⟩ := trimmed_usable he k0
    refine ⟨_, by
        rw [procFn]
        simp only [Roberta.toProcessor, Roberta.process, k1, optMapRes, if_true, Res.bind_ok, Bool.not_true, Bool.false_eq_true, if_false]
        rfl,
      decorated_usable g0 (roberta_special_aligned _) rfl (fun _ => rfl) (fun _ => rfl), ⟨?_, ?_⟩, fun _ => ?_⟩
    · simp [asked, Roberta.addSpecialToken, newEncoding, g1]
    · simp [asked, Roberta.addSpecialToken, newEncoding, g2]
    · have := g0.1 .attentionMask
      simp only [Encoding.arr] at this
      simp only [Roberta.addSpecialToken, newEncoding, this]
      exact ones_around _ _ (by simp)
  | byteLevel a t h1 h2 h3 =>
    refine ⟨_, .byteLevel q a t h1 h2 h3, by rw [procFn]; rfl, fun special e he => ?_⟩
    obtain ⟨r, k1, k2, _⟩ := C102_single t a special e he.2.2 he.1 he.2.1
    refine ⟨r, by rw [procFn]; exact k1, ⟨?_, ?_, rangesOk_fresh (byteLevel_ranges t a special e he.2.2 he.1 he.2.1 k1)⟩, ⟨?_, ?_⟩, ?_⟩
    · have hi := k2.same .ids (by simp)
      intro f
      by_cases hf : f = .offsets
      · subst hf
        have h3 := k2.offsets.1
        have h4 := he.1 .offsets
        simp only [Encoding.arr, seqArr] at hi h3 h4 ⊢
        rw [hi, h3, h4]
      · have h5 := k2.same f hf
        have h4 := he.1 f
        simp only [Encoding.arr, seqArr] at hi
        rw [h5, hi]
        cases f <;> simp [seqArr, Encoding.arr] at h4 ⊢ <;> exact h4
    · intro o ho
      obtain ⟨x, hx, h3, h4⟩ := forall₂_mem_right k2.parts ho
      exact TrimmedTo.aligned ⟨h3, h4⟩ (he.2.1 x hx)
    · simpa [Encoding.arr, seqArr, asked] using k2.same .ids (by simp)
    · simpa [Encoding.arr, seqArr, asked] using k2.same .tokens (by simp)
    · intro hm
      have h3 := k2.same .ids (by simp)
      have h4 := k2.same .attentionMask (by simp)
      simp only [Encoding.arr, seqArr] at h3 h4
      rw [h3, h4, hm]

theorem countAdded_specials {tab : TokenTable} (l : List (Str × Int)) (ty : Int) (rest : List Piece)
    (h : ∀ p ∈ l, tab p.1 = some ⟨p.1, [p.2], [p.1]⟩) :
    countAdded (l.map (fun p => Piece.special p.1 ty) ++ rest) tab = l.length + countAdded rest tab := by
  induction l with
  | nil => simp
  | cons p l ih =>
    rw [List.map_cons, List.cons_append, countAdded, h p (by simp), ih (fun q hq => h q (by simp [hq])), List.length_cons]
    simp only [List.length_cons, List.length_nil]
    omega

theorem one_cut {q : List (Str × Val)} {before after : List (Str × Int)} (h : OneAdds q before after) :
    ∃ c, ProcDesc q c ∧ Puts (procFn c) before after := by
  cases h with
  | plain h =>
    obtain ⟨c, h1, h0, h2⟩ := plain_cut h
    refine ⟨c, h1, h0, fun special e he => ?_⟩
    obtain ⟨r, k1, _, k2⟩ := h2 special e he
    exact ⟨r, k1, k2⟩
  | template ty pair toks ht h1 h2 h3 h4 h5 =>
    obtain ⟨tp, g1, g2, g3, g4, g5⟩ := C52_processor q _ pair toks h1 h2 h3 h4
    have htab : ∀ p ∈ before ++ after, tp.tab p.1 = some ⟨p.1, [p.2], [p.1]⟩ := fun p hp => g4 _ (h5 p hp)
    have hb : ∀ p ∈ before, tp.tab p.1 = some ⟨p.1, [p.2], [p.1]⟩ := fun p hp => htab p (by simp [hp])
    have ha : ∀ p ∈ after, tp.tab p.1 = some ⟨p.1, [p.2], [p.1]⟩ := fun p hp => htab p (by simp [hp])
    refine ⟨.template tp, .template q tp ht g1, ?_, fun special e he => ?_⟩
    · rw [procFn]
      simp only [TemplateProc.toProcessor, TemplateProc.addedTokens, Bool.false_eq_true, if_false, g2, surround]
      have h0 := countAdded_specials after ty [] ha
      rw [List.append_nil] at h0
      rw [List.append_assoc, countAdded_specials before ty _ hb, List.cons_append, List.nil_append, countAdded, h0]
      simp [countAdded]
    have hc : tp.chosen (none : Option Encoding).isSome = before.map (fun p => Piece.special p.1 ty) ++ [.seq false ty] ++
        after.map (fun p => Piece.special p.1 ty) := by
      simp only [TemplateProc.chosen, Option.isSome_none, Bool.false_eq_true, if_false, g2, surround]
    obtain ⟨r, k1, k2⟩ := C24_template tp e none special he.2.2 (by simp)
      (by
        rw [hc]
        refine ⟨by intro ty h; simp at h, fun _ id ty h => ?_⟩
        simp only [List.mem_append, List.mem_map, List.mem_singleton, Piece.special.injEq, reduceCtorEq, or_false] at h
        rcases h with ⟨p, hp, rfl, _⟩ | ⟨p, hp, rfl, _⟩
        · exact ⟨_, htab p (by simp [hp])⟩
        · exact ⟨_, htab p (by simp [hp])⟩)
      (by
        rw [hc]
        exact .inl ⟨false, ty, by simp⟩)
    rw [hc] at k2
    have hids : r.ids = (asked special before).map (·.2) ++ e.ids ++ (asked special after).map (·.2) := by
      have := k2 .ids
      rw [List.flatMap_append, List.flatMap_append, pieceArr_specials (f := .ids) before ty hb (fun p => p.2) (fun _ _ => rfl) special,
        pieceArr_specials (f := .ids) after ty ha (fun p => p.2) (fun _ _ => rfl) special] at this
      simpa [pieceArr, seqArr, Encoding.arr] using this
    refine ⟨r, by rw [procFn]; exact k1, ⟨hids, ?_⟩, fun hm => ?_⟩
    · have := k2 .tokens
      rw [List.flatMap_append, List.flatMap_append, pieceArr_specials (f := .tokens) before ty hb (fun p => p.1) (fun _ _ => rfl) special,
        pieceArr_specials (f := .tokens) after ty ha (fun p => p.1) (fun _ _ => rfl) special] at this
      simpa [pieceArr, seqArr, Encoding.arr] using this
    · have := k2 .attentionMask
      rw [List.flatMap_append, List.flatMap_append,
        pieceArr_specials (f := .attentionMask) before ty hb (fun _ => 1) (fun _ _ => rfl) special,
        pieceArr_specials (f := .attentionMask) after ty ha (fun _ => 1) (fun _ _ => rfl) special] at this
      simp only [pieceArr, seqArr, Encoding.arr, List.flatMap_cons, List.flatMap_nil, List.append_nil, hm, List.map_const'] at this
      rw [this, hids]
      simp [Nat.add_assoc]

theorem seq_cut {y : List (Str × Val)} {before after : List (Str × Int)} (hy : OneAdds y before after)
    (xs : List (List (Str × Val) × List (Str × Int) × List (Str × Int))) (h : ∀ x ∈ xs, PlainAdds x.1 x.2.1 x.2.2) :
    ∃ cs : List ProcCfg, (xs.map (·.1) ++ [y]).length = cs.length ∧
      (∀ (i : Nat) x c, (xs.map (·.1) ++ [y])[i]? = some x → cs[i]? = some c → ProcDesc x c) ∧
      sequenceAdded (procFns cs) false = (before ++ xs.reverse.flatMap (·.2.1)).length + (xs.flatMap (·.2.2) ++ after).length ∧
      ∀ (special : Bool) (e : Encoding), Usable e → ∃ r, sequenceProcess (procFns cs) e none special = .ok (some r) ∧
        Encloses (asked special (before ++ xs.reverse.flatMap (·.2.1))) (asked special (xs.flatMap (·.2.2) ++ after)) e r := by
  induction xs with
  | nil =>
    obtain ⟨c, h1, h0, h2⟩ := one_cut hy
    refine ⟨[c], rfl, ?_, by simp [procFns, sequenceAdded, h0], fun special e he => ?_⟩
    · intro i x d hx hd
      cases i with
      | zero => cases hx; cases hd; exact h1
      | succ i => cases hd
    · obtain ⟨r, k1, k2⟩ := h2 special e he
      refine ⟨r, ?_, by simpa using k2⟩
      simp only [procFns, sequenceProcess, k1, Res.bind_ok]
  | cons x xs ih =>
    obtain ⟨cs, i1, i2, i0, i3⟩ := ih (fun z hz => h z (by simp [hz]))
    obtain ⟨c, h1, h0, h2⟩ := plain_cut (h x (by simp))
    refine ⟨c :: cs, by simpa using i1, ?_, ?_, fun special e he => ?_⟩
    · intro i z d hz hd
      cases i with
      | zero => cases hz; cases hd; exact h1
      | succ i => exact i2 i z d (by simpa using hz) (by simpa using hd)
    · simp only [procFns, sequenceAdded, h0, i0, List.reverse_cons, List.flatMap_append, List.flatMap_cons, List.flatMap_nil,
        List.append_nil, List.length_append]
      omega
    · obtain ⟨r, k1, k2, k3⟩ := h2 special e he
      obtain ⟨r', l1, l2⟩ := i3 special r k2
      refine ⟨r', ?_, ?_⟩
      · simp only [procFns, sequenceProcess, k1, Res.bind_ok, l1]
      · have := k3.trans l2
        simpa [asked_append, asked_flatMap] using this

theorem proc_cut {q : List (Str × Val)} {before after : List (Str × Int)} (h : ProcAdds q before after) :
    ∃ c, ProcDesc q c ∧ Puts (procFn c) before after := by
  cases h with
  | one _ _ h => exact one_cut h
  | sequence xs y b a h1 h2 h3 h4 =>
    obtain ⟨cs, k1, k2, k0, k3⟩ := seq_cut h4 xs h3
    refine ⟨.sequence cs, .sequence q _ cs h1 h2 k1 k2, ?_, fun special e he => ?_⟩
    · rw [procFn]; exact k0
    · obtain ⟨r, l1, l2⟩ := k3 special e he
      exact ⟨r, by rw [procFn]; exact l1, l2⟩

end Tok.Whole
