import Verif.Whole.PropsPieces
import Verif.PreTok.PropsGetSplits
import Verif.PreTok.PropsBpe
import Verif.Concurrency.PropsTrain
import Verif.Train.PropsPrefix

/-!
# The words that training takes from a line, and what a trained model makes of them
-/

namespace Tok.Whole

open Tok.Norm Tok.PreTok Tok.Regex Tok.Train

/-- `log.Fatalf` on an error (tokenizer.go:897-900, 903-906). -/
def orFatal (x : Res α) : Res α :=
  match x with
  | .ok a => .ok a
  | .err => .panic
  | .panic => .panic

/-- `doNormalize` (tokenizer.go:544-554). -/
def lineNormalized (t : Tk) (line : List UInt8) : Res NStr :=
  match t.normalizer with
  | none => .ok (newNStr line)
  | some f => f (newNStr line)

/-- `doPreTokenize` (tokenizer.go:557-563): without a pre-tokenizer it fails. -/
def linePreTokenized (t : Tk) (pt : PTS) : Res PTS :=
  match t.preTokenizer with
  | none => .err
  | some p => p pt

/-- The words of a line of a training file (tokenizer.go:897-913, pretokenizer.go:297-303). Simplified: the values of
the pre-tokens are decoded to characters. -/
def trainWords (t : Tk) (line : List UInt8) : Res (List Str) := do
  let n ← orFatal (lineNormalized t line)
  let pt ← orFatal (linePreTokenized t ⟨n.original, [⟨n, none⟩]⟩)
  let ls ← pt.getSplits .original .byte
  pure (ls.map (fun p => decStr p.value))

/-- Training the tokenizer with a BPE trainer on these files gives `r` (tokenizer.go:742-853): the lines are counted by
concurrent goroutines, no line ends the process, and the trainer goes through the map of counts in some order. -/
def TrainedOn (t : Tk) (cfg : Cfg) (limit : Nat) (texts : List TextFile) (r : Trained) : Prop :=
  ∃ (wordsOf : List UInt8 → List Str) (st : TrainSt) (addr : Nat → Nat → Str) (wc : List (Str × Int)),
    (∀ f ∈ texts, ∀ l ∈ f.lines, trainWords t l = .ok (wordsOf l)) ∧
    Star (TrainStep wordsOf limit (texts.map TextFile.bytes)) (TrainSt.init limit (texts.map TextFile.bytes)) st ∧
    st.finished = true ∧ wc.Perm (st.dict.map (fun e => (e.1, (e.2 : Int)))) ∧ Trains cfg addr wc r

/-! ### Lemmas -/

theorem getSplits_ok (ss : List Split) : ∀ o : Int, ∃ ls, getSplitsLoop .original none ss o = .ok ls := by
  induction ss with
  | nil => intro o; exact ⟨[], rfl⟩
  | cons sp ss ih =>
    intro o
    obtain ⟨ls, h⟩ := ih o
    exact ⟨_ :: ls, by simp only [getSplitsLoop, h, Res.bind_ok]; rfl⟩

/-- The words that training takes from a line are the pieces that encoding has the model tokenize. -/
theorem trainWords_pieces {t : Tk} {p : PTS → Res PTS} {g : Str → List Str} {s u : Str} (hp : t.preTokenizer = some p)
    (hg : CutsTexts p g) (hn : Normalizes t s u) (hs : s ≠ []) (hu : u ≠ []) :
    trainWords t (encStr s) = .ok (g u) := by
  obtain ⟨n, e1, e2, e3⟩ : ∃ n, lineNormalized t (encStr s) = .ok n ∧ WF n ∧ n.normalized = encStr u := by
    rcases hn with ⟨h, rfl⟩ | ⟨f, hf, h⟩ | ⟨h, _⟩
    · exact ⟨_, by simp only [lineNormalized, h], (fpart_partOf (fpart_whole u)).2.2, fpart_text (fpart_whole u)⟩
    · obtain ⟨n, e1, e2, e3⟩ := h _ (fpart_whole s)
      exact ⟨n, by simp only [lineNormalized, hf, e1], e2, e3⟩
    · exact absurd h hs
  obtain ⟨pt, k1, _, k2⟩ := hg ⟨n.original, [⟨n, none⟩]⟩ [(u, none)] ⟨by simp [e3], by simp [hu], by
    intro sp hsp
    simp only [List.mem_singleton] at hsp
    subst hsp
    exact e2⟩
  obtain ⟨ls, h⟩ := getSplits_ok pt.splits 0
  have hl : pt.getSplits .original .byte = .ok ls := h
  have ht := C73_listed _ _ _ _ hl
  rw [k2.texts] at ht
  have hv : ls.map (fun q => decStr q.value) = g u := by
    have := congrArg (List.map (fun x : List UInt8 × Option (List Token) => decStr x.1)) ht
    rw [List.map_map, List.map_map] at this
    have e : ls.map (fun q => decStr q.value) =
      ls.map ((fun x : List UInt8 × Option (List Token) => decStr x.1) ∘ fun p => (p.value, p.tokens)) := rfl
    rw [e, this]
    simp [cutOne, Function.comp_def, decStr_enc]
  simp only [trainWords, e1, orFatal, Res.bind_ok, linePreTokenized, hp, k1, hl, hv, Res.pure_eq]

/-- What a trained model makes of a word whose characters it knows. -/
theorem trained_pieces {cfg : Cfg} {addr : Nat → Nat → Str} {wc : List (Str × Int)} {r : Trained} (hp : Train.Plain cfg)
    (h : Trains cfg addr wc r) (H : Heap) (w : Str) (hw : ∀ c ∈ w, (r.model.vocab [c]).isSome) :
    ∃ (qs : List (Int × Str)) (ts : List Token), bpeModel H r.model (encStr w) = .ok (some ts) ∧
      (qs.map (·.2)).flatten = w ∧ (∀ q ∈ qs, q.2 ≠ [] ∧ (∀ x, r.model.vocabR q.1 = some x → x = q.2) ∧
        ((∀ a b v, r.model.merges a b = some v → r.model.vocabR v.newId ≠ none) → r.model.vocabR q.1 = some q.2)) ∧
      ts.map (·.offsets) = spansFrom 0 (qs.map (·.2)) ∧ ts.map (·.id) = qs.map (·.1) ∧
      ts.map (·.value) = qs.map (fun q => (r.model.vocabR q.1).getD []) := by
  obtain ⟨ps, _, hi, _⟩ := C75_tokenizes_by_priority hp h H w hw (3 * w.length + 1) (by omega)
  obtain ⟨s, hr, _, rfl⟩ := h
  have hinv := (reach_inv hp hr).1
  obtain ⟨qs, ts, e1, e2, e3, e4, e5, e6⟩ := bpe_pieces H (finish cfg s).model (fun i x => textOf s.id2w i = x ∧
      ((∀ a b v, (finish cfg s).model.merges a b = some v → (finish cfg s).model.vocabR v.newId ≠ none) →
        (finish cfg s).model.vocabR i = some x))
    (by
      intro first c id hid
      have hv : (finish cfg s).model.vocab [c] = some id := by
        unfold symbolId at hid
        have hpre : (finish cfg s).model.pre = none := hp.pre
        have hunk : (finish cfg s).model.unk = none := rfl
        rw [hpre, hunk] at hid
        cases first <;> simpa using hid
      have hv' := (vocabR_get (cfg := cfg) hinv [c] id).2 hv
      exact ⟨text_of_vocabR hinv hv', fun _ => hv'⟩)
    (by
      intro a b m x y hm hx hy
      obtain ⟨i, h1, h2⟩ := (merges_get hinv).1 hm
      obtain ⟨_, _, _, m4⟩ := hinv.mergeOk _ (List.mem_of_getElem? h1)
      have ht : textOf s.id2w m.newId = x ++ y := by
        rw [m4]
        show textOf s.id2w a ++ textOf s.id2w b = _
        rw [hx.1, hy.1]
      refine ⟨ht, fun hk => ?_⟩
      cases hv : (finish cfg s).model.vocabR m.newId with
      | none => exact absurd hv (hk a b m hm)
      | some z => rw [← text_of_vocabR hinv hv, ht])
    w (by rw [hi]; nofun)
  refine ⟨qs, ts, e1, e2, fun q hq => ⟨(e3 q hq).1, fun x hx => ?_, (e3 q hq).2.2⟩, e4, e5, e6⟩
  rw [← (e3 q hq).2.1, text_of_vocabR hinv hx]

theorem mem_spansFrom (ws : List Str) : ∀ (n : Nat) (o : Int × Int), o ∈ spansFrom n ws → 0 ≤ o.1 ∧ o.1 ≤ o.2 := by
  induction ws with
  | nil => intro n o h; cases h
  | cons w ws ih =>
    intro n o h
    rw [spansFrom] at h
    rcases List.mem_cons.mp h with rfl | h
    · constructor
      · dsimp only; omega
      · dsimp only; omega
    · exact ih _ _ h

/-- A word that occurs in a line is counted. -/
theorem expectedCount_pos (wordsOf : List UInt8 → List Str) (texts : List TextFile) {f : TextFile} (hf : f ∈ texts)
    {l : List UInt8} (hl : l ∈ f.lines) {w : Str} (hw : w ∈ wordsOf l) :
    expectedCount wordsOf (texts.map TextFile.lines) w ≠ 0 := by
  have le_sum : ∀ (ns : List Nat) (n : Nat), n ∈ ns → n ≤ ns.sum := by
    intro ns
    induction ns with
    | nil => intro n h; cases h
    | cons m ns ih =>
      intro n h
      rw [List.sum_cons]
      rcases List.mem_cons.mp h with rfl | h
      · omega
      · have := ih n h; omega
  unfold expectedCount
  have h1 : 0 < (wordsOf l).count w := List.count_pos_iff.mpr hw
  have h2 := le_sum _ _ (List.mem_map_of_mem (f := fun l => (wordsOf l).count w) hl)
  have h3 := le_sum ((texts.map TextFile.lines).map (fun lines => (lines.map (fun l => (wordsOf l).count w)).sum)) _
    (List.mem_map_of_mem (List.mem_map_of_mem (f := TextFile.lines) hf))
  omega

theorem count_zero (wordsOf : List UInt8 → List Str) (texts : List TextFile) {w : Str}
    (h : ∀ f ∈ texts, ∀ l ∈ f.lines, w ∉ wordsOf l) : expectedCount wordsOf (texts.map TextFile.lines) w = 0 := by
  have sum0 : ∀ ns : List Nat, (∀ n ∈ ns, n = 0) → ns.sum = 0 := by
    intro ns
    induction ns with
    | nil => intro _; rfl
    | cons m ns ih =>
      intro h
      rw [List.sum_cons, h m (by simp), ih (fun n hn => h n (by simp [hn]))]
  unfold expectedCount
  apply sum0
  intro n hn
  obtain ⟨ls, h1, rfl⟩ := List.mem_map.mp hn
  obtain ⟨f, hf, rfl⟩ := List.mem_map.mp h1
  apply sum0
  intro n hn
  obtain ⟨l, hl, rfl⟩ := List.mem_map.mp hn
  exact List.count_eq_zero.mpr (h f hf l hl)

/-- If the words of the lines have these counts, training can go as on these counts. -/
theorem trainedOn_of_counts {t : Tk} {cfg : Cfg} {limit : Nat} {texts : List TextFile} (hpl : ∀ f ∈ texts, f.Plain)
    (hsz : ∀ f ∈ texts, f.bytes.length ≤ limit) {wordsOf : List UInt8 → List Str}
    (h1 : ∀ f ∈ texts, ∀ l ∈ f.lines, trainWords t l = .ok (wordsOf l)) {m : List (Str × Nat)}
    (hm : (m.map (·.1)).Nodup)
    (hc : ∀ w, mget m w = if expectedCount wordsOf (texts.map TextFile.lines) w = 0 then none
      else some (expectedCount wordsOf (texts.map TextFile.lines) w))
    {addr : Nat → Nat → Str} {r : Trained} (h : Trains cfg addr (m.map (fun e => (e.1, (e.2 : Int)))) r) :
    TrainedOn t cfg limit texts r := by
  obtain ⟨st, k1, k2⟩ := train_completes (wordsOf := wordsOf) (limit := limit) (files := texts.map TextFile.bytes) _
    (TrainOk.init limit _) (TrainFiles.init _ _)
  have hok : TrainOk st := k1.invariant (fun a b ha hs => ha.step a b hs) (TrainOk.init limit _)
  have hd := C47_counts_partial wordsOf limit texts hpl hsz st k1 k2
  have nd : ∀ {l : List (Str × Nat)}, (l.map (·.1)).Nodup → l.Nodup := by
    intro l
    induction l with
    | nil => intro _; exact List.nodup_nil
    | cons p l ih =>
      intro h
      rw [List.map_cons, List.nodup_cons] at h
      exact List.nodup_cons.mpr ⟨fun hp => h.1 (List.mem_map_of_mem hp), ih h.2⟩
  have hp : m.Perm st.dict := by
    rw [List.perm_iff_count]
    intro p
    have hiff : p ∈ m ↔ p ∈ st.dict := by
      constructor
      · intro hpm
        apply mem_of_mget
        rw [hd, ← hc]
        exact mget_of_mem hm hpm
      · intro hpm
        apply mem_of_mget
        rw [hc, ← hd]
        exact mget_of_mem hok.nodup hpm
    by_cases hpm : p ∈ m
    · rw [(nd hm).count, (nd hok.nodup).count, if_pos hpm, if_pos (hiff.1 hpm)]
    · rw [List.count_eq_zero.mpr hpm, List.count_eq_zero.mpr (fun h => hpm (hiff.2 h))]
  exact ⟨wordsOf, st, addr, _, h1, k1, k2, hp.map _, h⟩

theorem tokenizeLoop_dies {fn : NStr → Res (Option (List Token))} {m : Str → Res (Option (List Token))} (ps : List Str) :
    ∀ ss : List Split, ss.map (fun sp => (sp.normalized.normalized, sp.tokens)) = ps.map (fun w => (encStr w, none)) →
      (∀ w ∈ ps, (m w = .panic ∨ ∃ x, m w = .ok x) ∧ ∀ n : NStr, n.normalized = encStr w → fn n = m w) →
      (∃ w ∈ ps, m w = .panic) → tokenizeLoop fn ss = .panic := by
  induction ps with
  | nil => rintro ss _ _ ⟨w, hw, _⟩; cases hw
  | cons w ps ih =>
    intro ss h hf hbad
    cases ss with
    | nil => cases h
    | cons sp ss =>
      rw [List.map_cons, List.map_cons, List.cons.injEq, Prod.mk.injEq] at h
      obtain ⟨⟨e1, e2⟩, e3⟩ := h
      obtain ⟨k1, k2⟩ := hf w (by simp)
      simp only [tokenizeLoop, e2, k2 _ e1]
      rcases k1 with k1 | ⟨x, k1⟩
      · rw [k1]; rfl
      · rw [k1, Res.bind_ok, ih ss e3 (fun v hv => hf v (by simp [hv])) ?_]
        · rfl
        · obtain ⟨v, hv, hp⟩ := hbad
          rcases List.mem_cons.mp hv with rfl | hv
          · rw [k1] at hp; cases hp
          · exact ⟨v, hv, hp⟩

end Tok.Whole
