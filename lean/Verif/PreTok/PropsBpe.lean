import Verif.PreTok.PropsTokenizers
import Verif.Bpe.Props

/-!
# C64 for tokenizers with a BPE model
-/

namespace Tok.PreTok

open Tok.Norm

/-- `BPE.Tokenize` without dropout (bpe.go:464-493) as the model of a tokenizer. The cache is left
out: it changes no result (C32). The bound on the pops is not reached (C30). -/
def bpeModel (H : Heap) (b : BpeModel) (bs : List UInt8) : Res (Option (List Token)) := do
  let w := decStr bs
  match ← mergeWord H b (fun _ => false) (3 * w.length + 1) w with
  | none => .panic
  | some ss => .ok (some ((wordToTokens b ss).map (fun t => ⟨t.id, t.value, ((t.offsets.1 : Int), (t.offsets.2 : Int))⟩)))

/-- The symbols are the pieces of the text, in order, with their lengths; `R` relates the id of a
symbol and its piece. -/
def Spells (R : Int → Str → Prop) (w : Str) (l : List (Int × Nat)) : Prop :=
  ∃ qs : List (Int × Str), (qs.map (·.2)).flatten = w ∧ l = qs.map (fun q => (q.1, blen q.2)) ∧
    ∀ q ∈ qs, q.2 ≠ [] ∧ R q.1 q.2

theorem spells_merge {R : Int → Str → Prop} {merges : MergeTable}
    (hR : ∀ a b m x y, merges a b = some m → R a x → R b y → R m.newId (x ++ y)) {w : Str} {l l' : List (Int × Nat)}
    (h : Spells R w l) (hm : TableMerge merges l l') : Spells R w l' := by
  obtain ⟨qs, h1, h2, h3⟩ := h
  cases hm with
  | mk u v a b la lb m hab =>
    obtain ⟨q1, q2, e1, e2, e3⟩ := List.map_eq_append_iff.mp h2.symm
    obtain ⟨q, q3, f1, f2, f3⟩ := List.map_eq_cons_iff.mp e3
    obtain ⟨p, q4, g1, g2, g3⟩ := List.map_eq_cons_iff.mp f3
    subst e1 f1 g1
    simp only [Prod.mk.injEq] at f2 g2
    refine ⟨q1 ++ (m.newId, q.2 ++ p.2) :: q4, ?_, ?_, ?_⟩
    · rw [← h1]; simp
    · simp only [List.map_append, List.map_cons, e2, g3, blen_append, f2.2, g2.2]
    · intro x hx
      obtain ⟨hq1, hq2⟩ := h3 q (by simp)
      obtain ⟨_, hp2⟩ := h3 p (by simp)
      rcases List.mem_append.mp hx with hx | hx
      · exact h3 x (by simp [hx])
      · rcases List.mem_cons.mp hx with rfl | hx
        · refine ⟨by simp [hq1], ?_⟩
          exact hR a b m _ _ hab (by rw [← f2.1]; exact hq2) (by rw [← g2.1]; exact hp2)
        · exact h3 x (by simp [hx])

theorem spells_star {R : Int → Str → Prop} {merges : MergeTable}
    (hR : ∀ a b m x y, merges a b = some m → R a x → R b y → R m.newId (x ++ y)) {w : Str} {l l' : List (Int × Nat)}
    (h : Spells R w l) (hs : Star (TableMerge merges) l l') : Spells R w l' := by
  induction hs with
  | refl => exact h
  | tail _ hst ih => exact spells_merge hR ih hst

theorem spells_initial {R : Int → Str → Prop} {b : BpeModel}
    (hR : ∀ first r id, symbolId b first r = some id → R id [r]) {w : Str} {ps : List (Int × Nat)}
    (h : initialSymbols b w = some ps) : Spells R w ps := by
  have one : ∀ first r p, runeSymbol b first r = some p → p = (p.1, blen [r]) ∧ R p.1 [r] := by
    intro first r p hp
    obtain ⟨id, hid, rfl⟩ := Option.map_eq_some_iff.mp hp
    exact ⟨by simp, hR first r id hid⟩
  have many : ∀ (w : Str) ps, w.mapM (runeSymbol b false) = some ps → Spells R w ps := by
    intro w
    induction w with
    | nil => intro ps hps; simp at hps; subst hps; exact ⟨[], rfl, rfl, by simp⟩
    | cons r rs ih =>
      intro ps hps
      rw [List.mapM_cons] at hps
      cases hr : runeSymbol b false r with
      | none => rw [hr] at hps; cases hps
      | some p =>
        cases hrs : rs.mapM (runeSymbol b false) with
        | none => rw [hr, hrs] at hps; cases hps
        | some ps' =>
          rw [hr, hrs] at hps
          cases hps
          obtain ⟨qs, h1, h2, h3⟩ := ih ps' hrs
          obtain ⟨e1, e2⟩ := one false r p hr
          refine ⟨(p.1, [r]) :: qs, by simp [h1], by rw [List.map_cons, ← h2, ← e1], ?_⟩
          intro q hq
          rcases List.mem_cons.mp hq with rfl | hq
          · exact ⟨by simp, e2⟩
          · exact h3 q hq
  cases w with
  | nil => cases h; exact ⟨[], rfl, rfl, by simp⟩
  | cons r rs =>
    simp only [initialSymbols] at h
    cases hr : runeSymbol b true r with
    | none => rw [hr] at h; cases h
    | some p =>
      cases hrs : rs.mapM (runeSymbol b false) with
      | none => rw [hr, hrs] at h; cases h
      | some ps' =>
        rw [hr, hrs] at h
        cases h
        obtain ⟨qs, h1, h2, h3⟩ := many rs ps' hrs
        obtain ⟨e1, e2⟩ := one true r p hr
        refine ⟨(p.1, [r]) :: qs, by simp [h1], by rw [List.map_cons, ← h2, ← e1], ?_⟩
        intro q hq
        rcases List.mem_cons.mp hq with rfl | hq
        · exact ⟨by simp, e2⟩
        · exact h3 q hq

theorem getOffsets_spans (qs : List (Int × Str)) : ∀ (ss : List Symbol) (pos : Nat),
    ss.map (fun s => (s.c, s.len)) = qs.map (fun q => (q.1, blen q.2)) →
    (getOffsets pos ss).map (fun o => ((o.1 : Int), (o.2 : Int))) = spansFrom pos (qs.map (·.2)) := by
  induction qs with
  | nil => intro ss pos h; simp at h; subst h; rfl
  | cons q qs ih =>
    intro ss pos h
    cases ss with
    | nil => simp at h
    | cons s ss =>
      simp only [List.map_cons, List.cons.injEq, Prod.mk.injEq] at h
      rw [getOffsets, List.map_cons, ih ss _ h.2, List.map_cons, spansFrom, h.1.2]

/-- The result of the model: pieces of the text with their ids and their spans. -/
theorem bpe_pieces (H : Heap) (b : BpeModel) (R : Int → Str → Prop)
    (hR0 : ∀ first r id, symbolId b first r = some id → R id [r])
    (hR : ∀ a b' m x y, b.merges a b' = some m → R a x → R b' y → R m.newId (x ++ y))
    (w : Str) (hw : initialSymbols b w ≠ none) :
    ∃ (qs : List (Int × Str)) (ts : List Token), bpeModel H b (encStr w) = .ok (some ts) ∧
      (qs.map (·.2)).flatten = w ∧ (∀ q ∈ qs, q.2 ≠ [] ∧ R q.1 q.2) ∧
      ts.map (·.offsets) = spansFrom 0 (qs.map (·.2)) ∧ ts.map (·.id) = qs.map (·.1) ∧
      ts.map (·.value) = qs.map (fun q => (b.vocabR q.1).getD []) := by
  obtain ⟨ss, hss, _⟩ := C30_fixpoint H b w hw (3 * w.length + 1) (by omega)
  have hrun := hss
  rw [mergeWord_eq] at hrun
  cases hi : initialSymbols b w with
  | none => exact absurd hi hw
  | some ps =>
    rw [hi] at hrun
    simp only at hrun
    rcases mergeAll_run H b.merges (fun _ => false) (3 * w.length + 1) (initialSymbols_pos hi) with h' | ⟨ss', h', _, hstar⟩
    · rw [h'] at hrun; cases hrun
    · rw [h'] at hrun; cases hrun
      obtain ⟨qs, e1, e2, e3⟩ := spells_star hR (spells_initial hR0 hi) hstar
      refine ⟨qs, (wordToTokens b ss).map (fun t => ⟨t.id, t.value, ((t.offsets.1 : Int), (t.offsets.2 : Int))⟩), ?_, e1, e3, ?_, ?_, ?_⟩
      · simp only [bpeModel, decStr_enc, hss, Res.bind_ok]
      · rw [List.map_map, ← getOffsets_spans qs ss 0 e2, ← wordToTokens_offsets b ss, List.map_map]
        rfl
      · rw [List.map_map]
        have : ss.map (·.c) = qs.map (·.1) := by
          have := congrArg (List.map Prod.fst) e2
          rw [List.map_map, List.map_map] at this
          exact this
        rw [← this, ← wordToTokens_ids b ss]
        rfl
      · have hids : ss.map (·.c) = qs.map (·.1) := by
          have := congrArg (List.map Prod.fst) e2
          rw [List.map_map, List.map_map] at this
          exact this
        have hv : (wordToTokens b ss).map (·.value) = ((wordToTokens b ss).map (·.id)).map (fun i => (b.vocabR i).getD []) := by
          unfold wordToTokens
          rw [List.map_map, List.map_map, List.map_map]
          rfl
        rw [List.map_map]
        have : ((fun t : Token => t.value) ∘ fun t : BpeToken => (⟨t.id, t.value, ((t.offsets.1 : Int), (t.offsets.2 : Int))⟩ : Token)) =
          fun t : BpeToken => t.value := rfl
        rw [this, hv, wordToTokens_ids, hids, List.map_map]
        rfl

theorem located_spans (ws : List Str) (hne : ∀ w ∈ ws, w ≠ []) : ∀ (a : Str) (o : Int × Int),
    o ∈ spansFrom (blen a) ws → ∃ g w b, a ++ ws.flatten = g ++ w ++ b ∧ w ≠ [] ∧
      o = (((blen g : Nat) : Int), ((blen (g ++ w) : Nat) : Int)) := by
  induction ws with
  | nil => intro a o h; cases h
  | cons w ws ih =>
    intro a o h
    rw [spansFrom] at h
    rcases List.mem_cons.mp h with rfl | h
    · exact ⟨a, w, ws.flatten, by simp, hne w (by simp), by simp⟩
    · rw [← blen_append] at h
      obtain ⟨g, w', b, h1, h2, h3⟩ := ih (fun x hx => hne x (by simp [hx])) (a ++ w) o h
      exact ⟨g, w', b, by rw [← h1]; simp, h2, h3⟩

/-- A tokenizer with a BPE model that finds an id for every character. -/
theorem plain_bpe {t : Tk} {gaps : Bool} (H : Heap) (b : BpeModel) (hv : ∀ first r, symbolId b first r ≠ none)
    (hn : t.normalizer = none) (h1 : ProperSet t.splitRe)
    (h2 : ProperSet t.splitNormalizedRe) (hp : ∀ p, t.preTokenizer = some p → OnlyCuts gaps p)
    (hm : t.model = some (bpeModel H b)) : Plain t gaps ∧ ∀ w, initialSymbols b w ≠ none := by
  have hsome : ∀ first r, ∃ p, runeSymbol b first r = some p := by
    intro first r
    cases h : symbolId b first r with
    | none => exact absurd h (hv first r)
    | some id => exact ⟨(id, r.utf8Size), by simp [runeSymbol, h]⟩
  have hmany : ∀ w : Str, ∃ ps, w.mapM (runeSymbol b false) = some ps := by
    intro w
    induction w with
    | nil => exact ⟨[], rfl⟩
    | cons r rs ih =>
      obtain ⟨ps, h⟩ := ih
      obtain ⟨p, hp⟩ := hsome false r
      exact ⟨p :: ps, by rw [List.mapM_cons, hp, h]; rfl⟩
  have hinit : ∀ w, initialSymbols b w ≠ none := by
    intro w
    cases w with
    | nil => simp [initialSymbols]
    | cons r rs =>
      obtain ⟨ps, h⟩ := hmany rs
      obtain ⟨p, hp⟩ := hsome true r
      simp [initialSymbols, hp, h]
  refine ⟨⟨hn, h1, h2, hp, _, hm, ?_⟩, hinit⟩
  intro m hne
  obtain ⟨qs, ts, e1, e2, e3, e4, e5, e6⟩ := bpe_pieces H b (fun _ _ => True) (fun _ _ _ _ => trivial)
    (fun _ _ _ _ _ _ _ _ => trivial) m (hinit m)
  refine ⟨ts, e1, ?_, ?_⟩
  · rintro rfl
    cases qs with
    | nil => exact hne e2.symm
    | cons q qs => simp [spansFrom] at e4
  · intro x hx
    have ho : x.offsets ∈ spansFrom (blen ([] : Str)) (qs.map (·.2)) := by
      rw [blen_nil, ← e4]; exact List.mem_map_of_mem hx
    obtain ⟨g, w, r, k1, k2, k3⟩ := located_spans (qs.map (·.2)) (by
      intro w hw
      obtain ⟨q, hq, rfl⟩ := List.mem_map.mp hw
      exact (e3 q hq).1) [] _ ho
    exact ⟨g, w, r, by rw [← k1, e2]; simp, k2, k3⟩

/-- C64 (BPE): a tokenizer with a BPE model that has an id for every character (an unknown token is
enough), no dropout, no normalizer, and a pre-tokenizer that leaves nothing out encodes every
text, and the offsets are the spans of consecutive pieces of the whole text. -/
theorem C64_bpe_partial {t : Tk} (H : Heap) (b : BpeModel) (hv : ∀ first r, symbolId b first r ≠ none)
    (hn : t.normalizer = none) (h1 : ProperSet t.splitRe)
    (h2 : ProperSet t.splitNormalizedRe) (hp : ∀ p, t.preTokenizer = some p → OnlyCuts false p)
    (hm : t.model = some (bpeModel H b)) (s : Str) (typeId : Int) :
    ∃ e ws, t.encodeSingle (.raw (encStr s)) typeId .byte = .ok e ∧ ws.flatten = s ∧
      (∀ w ∈ ws, w ≠ []) ∧ e.offsets = spansFrom 0 ws := by
  obtain ⟨hplain, hinit⟩ := plain_bpe H b hv hn h1 h2 hp hm
  refine C64_cover_partial hplain ?_ s typeId
  intro f m ts hf _ he
  rw [hm] at hf
  cases hf
  obtain ⟨qs, ts', e1, e2, e3, e4, _, _⟩ := bpe_pieces H b (fun _ _ => True) (fun _ _ _ _ => trivial)
    (fun _ _ _ _ _ _ _ _ => trivial) m (hinit m)
  rw [e1] at he
  cases he
  refine ⟨qs.map (·.2), e2, ?_, e4⟩
  intro w hw
  obtain ⟨q, hq, rfl⟩ := List.mem_map.mp hw
  exact (e3 q hq).1

/-- C64 (BPE values): if moreover every character is in the vocabulary, ids and tokens of the two
vocabulary tables correspond, there is no prefix, and every merge is written as its two parts
are, each token is the text between its offsets. -/
theorem C64_bpe_values_partial {t : Tk} {gaps : Bool} (H : Heap) (b : BpeModel) (hpre : b.pre.getD [] = [])
    (hv : ∀ r, ∃ id, b.vocab [r] = some id ∧ b.vocabR id = some [r])
    (hmerge : ∀ x y m p q, b.merges x y = some m → b.vocabR x = some p → b.vocabR y = some q →
      b.vocabR m.newId = some (p ++ q))
    (hn : t.normalizer = none) (h1 : ProperSet t.splitRe)
    (h2 : ProperSet t.splitNormalizedRe) (hp : ∀ p, t.preTokenizer = some p → OnlyCuts gaps p)
    (hm : t.model = some (bpeModel H b)) (s : Str) (typeId : Int) :
    ∃ e, t.encodeSingle (.raw (encStr s)) typeId .byte = .ok e ∧
      ∀ (k : Nat) v o, e.tokens[k]? = some v → e.offsets[k]? = some o →
        ∃ g r, s = g ++ v ++ r ∧ v ≠ [] ∧ o = (((blen g : Nat) : Int), ((blen (g ++ v) : Nat) : Int)) := by
  have hsym : ∀ first r, ∃ id, symbolId b first r = some id ∧ b.vocabR id = some [r] := by
    intro first r
    obtain ⟨id, e1, e2⟩ := hv r
    refine ⟨id, ?_, e2⟩
    unfold symbolId
    rw [hpre]
    cases first <;> simp [e1]
  obtain ⟨hplain, hinit⟩ := plain_bpe H b (by
    intro first r
    obtain ⟨id, e, _⟩ := hsym first r
    rw [e]; simp) hn h1 h2 hp hm
  refine C64_values_partial hplain ?_ s typeId
  intro f m ts hf _ he x hx
  rw [hm] at hf
  cases hf
  obtain ⟨qs, ts', e1, e2, e3, e4, _, e6⟩ := bpe_pieces H b (fun id w => b.vocabR id = some w) (by
      intro first r id hid
      obtain ⟨id', k1, k2⟩ := hsym first r
      rw [hid] at k1
      cases k1
      exact k2)
    (fun x y m p q hxy hp hq => hmerge x y m p q hxy hp hq) m (hinit m)
  rw [e1] at he
  cases he
  have hval : ts.map (·.value) = qs.map (·.2) := by
    rw [e6]
    apply List.map_congr_left
    intro q hq
    rw [(e3 q hq).2]
    rfl
  -- the entry at one index
  obtain ⟨k, hk⟩ := List.getElem?_of_mem hx
  have hvk : (qs.map (·.2))[k]? = some x.value := by rw [← hval, List.getElem?_map, hk]; rfl
  have hok : (spansFrom 0 (qs.map (·.2)))[k]? = some x.offsets := by rw [← e4, List.getElem?_map, hk]; rfl
  have key : ∀ (ws : List Str) (a : Str) (k : Nat) (w : Str) (o : Int × Int), ws[k]? = some w →
      (spansFrom (blen a) ws)[k]? = some o → ∃ g r, a ++ ws.flatten = g ++ w ++ r ∧
        o = (((blen g : Nat) : Int), ((blen (g ++ w) : Nat) : Int)) := by
    intro ws
    induction ws with
    | nil => intro a k w o h; simp at h
    | cons w0 ws ih =>
      intro a k w o h ho
      cases k with
      | zero =>
        simp only [List.getElem?_cons_zero, Option.some.injEq, spansFrom] at h ho
        subst h ho
        exact ⟨a, ws.flatten, by simp, by simp⟩
      | succ k =>
        simp only [List.getElem?_cons_succ, spansFrom] at h ho
        rw [← blen_append] at ho
        obtain ⟨g, r, k1, k2⟩ := ih (a ++ w0) k w o h ho
        exact ⟨g, r, by rw [← k1]; simp, k2⟩
  obtain ⟨g, r, k1, k2⟩ := key _ [] k _ _ hvk (by simpa using hok)
  refine ⟨g, r, by rw [← k1, e2]; simp, ?_, k2⟩
  obtain ⟨q, hq, hqv⟩ := List.mem_map.mp (List.mem_of_getElem? hvk)
  rw [← hqv]
  exact (e3 q hq).1

/-- A BPE model over all characters that merges "a" and "b": ids are code points, "ab" is -1. -/
def exampleBpe : BpeModel :=
  { vocab := fun w => match w with
      | [c] => some (c.toNat : Int)
      | _ => none
    vocabR := fun id => if id = -1 then some ['a', 'b'] else some [Char.ofNat id.toNat]
    merges := fun x y => if x = 97 ∧ y = 98 then some ⟨0, -1⟩ else none
    unk := none, pre := none, suf := none }

/-- It meets the hypotheses. -/
example (s : Str) : ∃ e, (⟨charSet 7 '@', ⟨[], fun _ => []⟩, none, none, some (bpeModel listHeap exampleBpe)⟩ : Tk).encodeSingle
      (.raw (encStr s)) 0 .byte = .ok e ∧
    ∀ (k : Nat) v o, e.tokens[k]? = some v → e.offsets[k]? = some o →
      ∃ g r, s = g ++ v ++ r ∧ v ≠ [] ∧ o = (((blen g : Nat) : Int), ((blen (g ++ v) : Nat) : Int)) := by
  refine C64_bpe_values_partial (gaps := false) listHeap exampleBpe rfl ?_ ?_ rfl (properSet_char 7 '@')
    properSet_none (by simp) rfl s 0
  · intro r
    refine ⟨(r.toNat : Int), rfl, ?_⟩
    unfold exampleBpe
    dsimp only
    rw [if_neg (by omega)]
    simp
  · intro x y m p q hm hx hy
    simp only [exampleBpe] at hm hx hy ⊢
    split at hm
    · next h =>
      obtain ⟨rfl, rfl⟩ := h
      cases hm
      simp at hx hy
      subst hx hy
      rfl
    · cases hm

/-- "xab@" becomes "x", "ab", "@". -/
example : okAnd ((⟨charSet 7 '@', ⟨[], fun _ => []⟩, none, none, some (bpeModel listHeap exampleBpe)⟩ : Tk).encodeSingle
    (.raw (encStr ['x', 'a', 'b', '@'])) 0 .byte)
    (fun e => decide (e.tokens = [['x'], ['a', 'b'], ['@']] ∧ e.offsets = [(0, 1), (1, 3), (3, 4)])) = true := by
  decide +kernel

end Tok.PreTok
