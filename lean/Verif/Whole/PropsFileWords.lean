import Verif.Whole.PropsFileUnigram
import Verif.Whole.LiteralCut
import Verif.PreTok.PrefixReplace
import Verif.Norm.PropsNormalizers

/-!
# C131: a word-level tokenizer from a file
-/

namespace Tok.Whole

open Tok.PreTok Tok.Added Tok.Config Tok.Regex
open Tok.Norm (NStr WF Behavior runs pieces stripped replacedText)

/-! ### Specification -/

/-- The text `u` that the normalizer makes of the text `s`: lower-casing that keeps the number of bytes, NFC and NFKC of
texts that are composed already, a prefix, and sequences of them. -/
inductive NormalForm (E : FileEnv) : NormCfg → Str → Str → Prop
  | lowercase (s u : Str) : E.tables.lower (encStr s) = encStr u → blen u = blen s → NormalForm E .lowercase s u
  | nfc (s : Str) : E.tables.isNFC (encStr s) = true → NormalForm E .nfc s s
  | nfkc (s : Str) : E.tables.isNFKC (encStr s) = true → NormalForm E .nfkc s s
  | prepend (p : Str) (c : Char) (s : Str) : c ≠ '\x00' → NormalForm E (.prepend p) (c :: s) (p ++ c :: s)
  | nil (s : Str) : NormalForm E (.sequence []) s s
  | cons (c : NormCfg) (l : List NormCfg) (s t u : Str) : NormalForm E c s t → NormalForm E (.sequence l) t u →
      NormalForm E (.sequence (c :: l)) s u

/-- The same for normalizers that are the first to change the text: white space at the ends is taken away (in front only if
there is none, which is a limit of this description), the occurrences of a string are replaced, and so are they after a
prefix of one character has been put in front, in which none of them begins. -/
inductive FirstForm (E : FileEnv) : NormCfg → Str → Str → Prop
  | form (c : NormCfg) (s u : Str) : NormalForm E c s u → FirstForm E c s u
  | strip (l r : Bool) (s : Str) : '\x00' ∉ s → (l = true → ∀ c ∈ s.head?, E.tables.space c = false) →
      FirstForm E (.strip l r) s (stripped E.tables.space l r s)
  | replace (w content : Str) (us : List (Str × Bool)) : w ≠ [] → textOf us ≠ [] → WordCut w us →
      FirstForm E (.replace false w content) (textOf us) (replacedText content us)
  | regex (w content s : Str) (us : List (Str × Bool)) : s ≠ [] → Parted (.regexp (E.engine w)) s us →
      FirstForm E (.replace true w content) s (replacedText content us)
  | first (c : NormCfg) (l : List NormCfg) (s t u : Str) : FirstForm E c s t → NormalForm E (.sequence l) t u →
      FirstForm E (.sequence (c :: l)) s u
  | prepended (r c : Char) (s q w content u : Str) (us : List (Str × Bool)) (l : List NormCfg) : c ≠ '\x00' → w ≠ [] →
      WordCut w ((r :: q, false) :: us) → q ++ textOf us = c :: s →
      NormalForm E (.sequence l) (r :: q ++ replacedText content us) u →
      FirstForm E (.sequence (.prepend [r] :: .replace false w content :: l)) (c :: s) u

/-- The section "normalizer" makes `u` of `s`. No normalizer sees the empty text. -/
def NormSection (E : FileEnv) (o : Option (List (Str × Val))) (s u : Str) : Prop :=
  (o = none ∧ u = s) ∨
  (∃ n cfg, o = some n ∧ NormDesc E.cfg n cfg ∧ s = [] ∧ u = []) ∨
  (∃ n cfg, o = some n ∧ NormDesc E.cfg n cfg ∧ FirstForm E cfg s u) ∨
  ∃ n cl l ch a, o = some n ∧ NormDesc E.cfg n (.bert cl l ch a) ∧ Plain E.tables l s u

/-- The pieces into which the pre-tokenizers cut a text. The matches of the regular expressions come from outside of the
modelled code. -/
inductive FileCuts (E : FileEnv) : PreCfg → (Str → List Str) → Prop
  | bert : E.ws = bertRe.engine → FileCuts E .bert (fun s =>
      ((runs (fun a b => isS a == isS b) s).filter (fun w => w.all (fun c => !isS c))).flatMap
        (runs (fun a b => !E.punc a && !E.punc b)))
  | delimiter (d : Char) : FileCuts E (.delimiter d) (fun s =>
      (runs (fun a b => !(a == d) && !(b == d)) s).filter (fun w => !w.any (· == d)))
  | whitespace : E.words = whitespaceRe.engine → FileCuts E .whitespace (fun s =>
      (runs (fun a b => isW a == isW b && isS a == isS b) s).filter (fun w => w.all (fun c => !isS c)))
  | whitespaceSplit : FileCuts E .whitespaceSplit (fun s =>
      (runs (fun a b => !E.whitespace a && !E.whitespace b) s).filter (fun w => !w.any E.whitespace))
  | punctuation (b : Behavior) : FileCuts E (.punctuation b) (pieces E.punctuation b)
  | digits (individual : Bool) : FileCuts E (.digits individual)
      (runs (fun a b => if individual then !E.number a && !E.number b else E.number a == E.number b))
  | split (re : Str) (b : Behavior) (invert : Bool) (cut : Str → List (Str × Bool)) :
      (∀ s, s ≠ [] → Parted (.regexp (E.engine re)) s (cut s)) →
      FileCuts E (.split re b invert) (fun s => kept b (if invert then flipped (cut s) else cut s))
  | nil : FileCuts E (.sequence []) (fun s => [s])
  | cons (c : PreCfg) (l : List PreCfg) (g h : Str → List Str) : FileCuts E c g → FileCuts E (.sequence l) h →
      FileCuts E (.sequence (c :: l)) (fun s => (g s).flatMap h)

/-- The section "pre_tokenizer" cuts a text into the pieces that `g` gives. -/
def PreSection (E : FileEnv) (o : Option (List (Str × Val))) (g : Str → List Str) : Prop :=
  (o = none ∧ ∀ s, g s = [s]) ∨ ∃ p cfg, o = some p ∧ PreDesc E.cfg p cfg ∧ FileCuts E cfg g

/-- The id of a word: its own, or that of the unknown token. -/
def wordId (v : List (Str × Int)) (unk w : Str) : Option Int :=
  match mget v w with
  | some i => some i
  | none => mget v unk

/-- The token that stands for a word after decoding. -/
def shown (v : List (Str × Int)) (unk w : Str) : Str := if (mget v w).isSome then w else unk

/-- The token that stands for unknown words: "<unk>" if the file names none. -/
def unkName (o : Option Str) : Str := if o.getD [] = [] then "<unk>".toList else o.getD []

/-! ### Lemmas -/

theorem normalForm_works {E : FileEnv} {cfg : NormCfg} {s u : Str} (h : NormalForm E cfg s u) : ∀ n : NStr, WF n →
    n.normalized = encStr s → ∃ n', normFn E cfg (some n) = .ok (some n') ∧ WF n' ∧ n'.normalized = encStr u := by
  induction h with
  | lowercase s u h1 h2 =>
    intro n hw hn
    have hr : E.tables.lower n.normalized = encStr u := by rw [hn, h1]
    refine ⟨n.recase E.tables.lower, ?_, ⟨?_, hw.lenO, hw.within, hw.mono⟩, hr⟩
    · simp only [normFn, Norm.Normalizer.normalize, if_true, Bool.false_eq_true, if_false]
    · show n.aligns.length = (E.tables.lower n.normalized).length
      rw [hw.lenA, hr, hn, length_encStr, length_encStr, h2]
  | nfc s h =>
    intro n hw hn
    refine ⟨n, ?_, hw, hn⟩
    have := (Norm.C86_composed_partial E.tables n).1 (by rw [hn]; exact h)
    simp only [normFn, Norm.Normalizer.normalize, this, Res.bind]
  | nfkc s h =>
    intro n hw hn
    refine ⟨n, ?_, hw, hn⟩
    have := (Norm.C86_composed_partial E.tables n).2 (by rw [hn]; exact h)
    simp only [normFn, Norm.Normalizer.normalize, this, Res.bind]
  | prepend p c s hc =>
    intro n hw hn
    obtain ⟨p1, p2⟩ := Norm.prepend_items p c
    have hlen := String.length_utf8EncodeChar c
    have hb : c.utf8Size ≤ n.normalized.length := by rw [hn, length_encStr, blen_cons]; omega
    have htk : (n.normalized.take c.utf8Size).drop 0 = encStr [c] := by
      rw [hn, encStr_cons, ← hlen, List.take_left]; simp
    have hd : n.normalized.drop c.utf8Size = encStr s := by
      rw [hn, encStr_cons, ← hlen, List.drop_left]
    obtain ⟨n2, e1, e2, _, e3⟩ := Norm.C41_range_partial n hw 0 c.utf8Size (by omega) hb [c] htk (Norm.prependItems p c)
      (by simpa using p2) (by simpa using hc.symm)
    refine ⟨n2, ?_, e2, ?_⟩
    · have hne : n.normalized ≠ [] := by rw [hn]; exact encStr_ne (by simp)
      simp only [normFn, Norm.Normalizer.normalize, if_neg hne, NStr.prepend]
      simp only [hn, Norm.runes_encStr]
      rw [show (0 : Int) = ((0 : Nat) : Int) from rfl, e1]
      rfl
    · rw [e3, p1, hd]
      simp
  | nil s =>
    intro n hw hn
    exact ⟨n, by simp only [normFn, normFns], hw, hn⟩
  | cons c l s t u h1 h2 ih1 ih2 =>
    intro n hw hn
    obtain ⟨n1, e1, w1, t1⟩ := ih1 n hw hn
    obtain ⟨n2, e2, w2, t2⟩ := ih2 n1 w1 t1
    refine ⟨n2, ?_, w2, t2⟩
    simp only [normFn] at e2 ⊢
    rw [normFns, e1]
    exact e2

theorem firstForm_works {E : FileEnv} {cfg : NormCfg} {s u : Str} (h : FirstForm E cfg s u) : ∀ n : NStr, PreTok.Fresh n s →
    ∃ n', normFn E cfg (some n) = .ok (some n') ∧ WF n' ∧ n'.normalized = encStr u := by
  induction h with
  | form c s u h =>
    intro n hf
    exact normalForm_works h n hf.wf hf.text
  | strip l r s h0 h1 =>
    intro n hf
    have htx := Norm.strip_text E.tables.space l r s
    have hl0 : (if l = true then (s.takeWhile E.tables.space).length else 0) = 0 := by
      cases l with
      | false => rfl
      | true =>
        cases s with
        | nil => rfl
        | cons c ds => simp [h1 rfl c (by simp)]
    have hs : n.strip E.tables.space l r =
        (let lead := if l then (s.takeWhile E.tables.space).length else 0
         let trail := if r then (s.reverse.takeWhile E.tables.space).length else 0
         if lead > 0 ∨ trail > 0 then n.transform (Norm.stripItems s lead trail) lead else .ok n) := by
      simp only [NStr.strip, hf.text, Norm.runes_encStr, Norm.stripItems]
    have key : ∃ n', n.strip E.tables.space l r = .ok n' ∧ WF n' ∧ n'.normalized = encStr (stripped E.tables.space l r s) := by
      rw [hs]
      simp only [hl0] at htx ⊢
      generalize (if r = true then (s.reverse.takeWhile E.tables.space).length else 0) = trail at htx
      split
      · rw [Norm.transform_eq hf.cover hf.wf.lenA]
        have hu := Norm.stripItems_uses s 0 trail (by omega)
        obtain ⟨n', e1, e2, _, e3⟩ := Norm.C41_range_partial n hf.wf 0 n.normalized.length (by omega) (Nat.le_refl _) s
          (by simp [hf.text]) (Norm.stripItems s 0 trail) (by omega) h0
        refine ⟨n', e1, e2, ?_⟩
        rw [e3, Norm.stripItems_text, htx]
        simp
      · next h =>
        refine ⟨n, rfl, hf.wf, ?_⟩
        rw [hf.text, ← htx, show trail = 0 by omega]
        simp
    obtain ⟨n', e1, e2, e3⟩ := key
    refine ⟨n', ?_, e2, e3⟩
    have : Norm.stripNormalize E.tables l r n = .ok n' := by
      rw [← e1]
      unfold Norm.stripNormalize
      cases l <;> cases r
      · simp [NStr.strip]
      all_goals rfl
    simp only [normFn, Norm.Normalizer.normalize, this]
    rfl
  | replace w content us hw hne h =>
    intro n hf
    have h0 := rinv_fresh hf
    obtain ⟨n', e1, e2, e3, _⟩ := replaceLoop_wf content us (reCut_ne (wordCut_re hw h)) (k := 0) (off := 0) h0 (by simp)
      List.Pairwise.nil (by simp)
    refine ⟨n', ?_, e3, by rw [e2]; rfl⟩
    simp only [normFn, replacePat, Bool.false_eq_true, if_false, Norm.Normalizer.normalize, NStr.replace, hf.text,
      string_find hw h hne, Res.bind_ok, Norm.runes_encStr, e1]
    rfl
  | regex w content s us hne h =>
    intro n hf
    obtain ⟨f1, f2, f3⟩ := parted_find h hne
    have h0 := rinv_fresh hf
    rw [← f2] at h0
    obtain ⟨n', e1, e2, e3, _⟩ := replaceLoop_wf content us f3 (k := 0) (off := 0) h0 (by simp) List.Pairwise.nil (by simp)
    refine ⟨n', ?_, e3, by rw [e2]; rfl⟩
    simp only [normFn, replacePat, if_true, Norm.Normalizer.normalize, NStr.replace, hf.text, f1, Res.bind_ok,
      Norm.runes_encStr, e1]
    rfl
  | first c l s t u h1 h2 ih =>
    intro n hf
    obtain ⟨n1, e1, w1, t1⟩ := ih n hf
    obtain ⟨n2, e2, w2, t2⟩ := normalForm_works h2 n1 w1 t1
    refine ⟨n2, ?_, w2, t2⟩
    simp only [normFn] at e2 ⊢
    rw [normFns, e1]
    exact e2
  | prepended r c s q w content u us l hc hw h hq h2 =>
    intro n hf
    have htx : textOf ((r :: q, false) :: us) = r :: c :: s := by
      rw [textOf_cons, List.cons_append, hq]
    have hfind := string_find hw h (by rw [htx]; simp)
    rw [htx] at hfind
    obtain ⟨y, z, e1, e2, e3, e4, _⟩ := prepend_replace hf hc r _ content q us hq
      (fun u hu => reCut_ne (wordCut_re hw h) u (by simp [hu])) hfind
    obtain ⟨n', k1, k2, k3⟩ := normalForm_works h2 z e4 e3
    refine ⟨n', ?_, k2, k3⟩
    have hne : n.normalized ≠ [] := by rw [hf.text]; exact encStr_ne (by simp)
    simp only [normFn] at k1
    simp only [normFn, normFns, replacePat, Bool.false_eq_true, if_false, Norm.Normalizer.normalize, if_neg hne, e1, Res.bind,
      e2, k1, bind]

/-- What the section "normalizer" does in the tokenizer. -/
theorem normSection_normalizes {E : FileEnv} {o : Option (List (Str × Val))} {s u : Str} (h : NormSection E o s u) :
    ∃ n, fromSection (createNorm E.cfg) o = .ok n ∧
      ∀ t : Tk, t.normalizer = n.map (normalizerOf E) → Normalizes t s u := by
  rcases h with ⟨rfl, rfl⟩ | ⟨n, cfg, rfl, h1, h2⟩ | ⟨n, cfg, rfl, h1, h2⟩ | ⟨n, cl, l, ch, a, rfl, h1, h2⟩
  · exact ⟨none, rfl, fun t ht => .inl ⟨ht, rfl⟩⟩
  · exact ⟨_, fromSection_some (C70_normalizer_partial E.cfg n _ h1), fun t ht => .inr (.inr h2)⟩
  · refine ⟨_, fromSection_some (C70_normalizer_partial E.cfg n _ h1), fun t ht => .inr (.inl ⟨_, ht, fun x hx => ?_⟩)⟩
    obtain ⟨n', e1, e2, e3⟩ := firstForm_works h2 x hx.2.1
    exact ⟨n', by simp only [normalizerOf, e1, Res.bind_ok], e2, e3⟩
  · exact ⟨_, fromSection_some (C70_normalizer_partial E.cfg n _ h1),
      fun t ht => normalizes_bert_any _ ht (bert_normalizerOf E cl l ch a) h2⟩

theorem cutOne_cutOne (g h : Str → List Str) (t : Str × Option (List Token)) :
    (cutOne g t).flatMap (cutOne h) = cutOne (fun s => (g s).flatMap h) t := by
  obtain ⟨a, b⟩ := t
  cases b with
  | some k => simp [cutOne]
  | none => simp only [cutOne, List.flatMap_map, List.map_flatMap]

theorem fileCuts_texts {E : FileEnv} {cfg : PreCfg} {g : Str → List Str} (h : FileCuts E cfg g) :
    CutsTexts (preFn E cfg) g := by
  induction h with
  | bert h =>
    have : preFn E .bert = bertPre bertRe.engine E.punc := by funext pt; rw [preFn, h]
    rw [this]
    exact C72_bert E.punc
  | delimiter d =>
    have : preFn E (.delimiter d) = delimiterSplit d := by funext pt; rw [preFn]
    rw [this]
    exact C72_delimiter d
  | whitespace h =>
    have : preFn E .whitespace = whitespace whitespaceRe.engine := by funext pt; rw [preFn, h]
    rw [this]
    exact C72_whitespace
  | whitespaceSplit =>
    have : preFn E .whitespaceSplit = whitespaceSplit E.whitespace := by funext pt; rw [preFn]
    rw [this]
    exact C72_whitespaceSplit _
  | punctuation b =>
    have : preFn E (.punctuation b) = punctuation E.punctuation b := by funext pt; rw [preFn]
    rw [this]
    exact C72_punctuation _ b
  | digits individual =>
    have : preFn E (.digits individual) = digits E.number individual := by funext pt; rw [preFn]
    rw [this]
    exact C72_digits _ individual
  | split re b invert cut h =>
    have : preFn E (.split re b invert) = splitPre (.regexp (E.engine re)) b invert := by funext pt; rw [preFn]
    rw [this]
    exact C72_split_any _ b invert cut h
  | nil =>
    intro pt ts hh
    refine ⟨pt, by simp only [preFn, preFns], rfl, ?_⟩
    have : ts.flatMap (cutOne (fun s => [s])) = ts := by
      have : (cutOne (fun s => [s])) = fun t => [t] := by
        funext t
        obtain ⟨a, b⟩ := t
        cases b <;> rfl
      rw [this]
      simp
    rw [this]
    exact hh
  | cons c l g h h1 h2 ih1 ih2 =>
    intro pt ts hh
    obtain ⟨pt1, e1, o1, hh1⟩ := ih1 pt ts hh
    obtain ⟨pt2, e2, o2, hh2⟩ := ih2 pt1 _ hh1
    simp only [preFn] at e2
    refine ⟨pt2, by simp only [preFn, preFns, e1, e2, Res.bind_ok], by rw [o2, o1], ?_⟩
    rw [List.flatMap_assoc] at hh2
    simpa only [cutOne_cutOne] using hh2

theorem preSection_cuts {E : FileEnv} {o : Option (List (Str × Val))} {g : Str → List Str} (h : PreSection E o g) :
    ∃ p, fromSection (createPre E.cfg) o = .ok p ∧ ∀ t : Tk, t.preTokenizer = p.map (preFn E) → CutsInto t g := by
  rcases h with ⟨rfl, h⟩ | ⟨p, cfg, rfl, h1, h2⟩
  · exact ⟨none, rfl, fun t ht => .inl ⟨ht, h⟩⟩
  · exact ⟨_, fromSection_some (C70_preTokenizer_partial E.cfg p _ h1),
      fun t ht => .inr ⟨_, ht, fileCuts_texts h2⟩⟩

theorem kept_filter {T : VocabState} (l : List (Str × Int)) (h : ∀ p ∈ l, T.idToToken p.2 = some p.1) :
    T.decodeTokens true (l.map (·.2)) = (l.map (·.1)).filter (fun w => !T.isSpecial w) := by
  induction l with
  | nil => rfl
  | cons p l ih =>
    simp only [List.map_cons, VocabState.decodeTokens, h p (by simp), ih (fun q hq => h q (by simp [hq])), List.filter_cons]
    cases T.isSpecial p.1 <;> simp

/-- Encoding with a tokenizer from a file: the tokens that the model gives for the pieces of the normalized text, with
the special tokens around them. -/
theorem file_encode {E : FileEnv} {c : FileConfig} {a : AnyModel} (ha : createModel (c.model.getD []) (c.decoder.getD []) = .ok a)
    {s u : Str} (hn : NormSection E c.normalizer s u) {g : Str → List Str} (hp : PreSection E c.preTokenizer g)
    {before after : List (Str × Int)} (hproc : Surrounds c.postProcessor before after)
    {dec : Option DecCfg} (hd : fromSection createDec c.decoder = .ok dec)
    (htr : c.truncation = none) (hpad : c.padding = none)
    {T : VocabState} {re reN : MatchingSet} {n : Option NormCfg} (hcn : fromSection (createNorm E.cfg) c.normalizer = .ok n)
    (h1 : loadAdded (vocabOf (c.model.getD []) a) c.addedTokens = .ok T)
    (h2 : buildSet E.wordChar (n.map (normalizerOf E)) E.order T.splitRe = .ok re)
    (h3 : buildSet E.wordChar (n.map (normalizerOf E)) E.order T.splitNormalizedRe = .ok reN)
    (h4 : re.engine (encStr s) = []) (h5 : reN.engine (encStr u) = []) :
    ∃ b : Built, fromReader E (some c) = .ok b ∧ b.state = T ∧ b.decoder = dec.map (decodeFn E) ∧
      (∀ tok : Str → List Token, (∀ w ∈ piecesOf g s u, modelFn E a (encStr w) = .ok (some (tok w)) ∧ tok w ≠ [] ∧
          ∀ x ∈ tok w, 0 ≤ x.offsets.1 ∧ x.offsets.1 ≤ x.offsets.2) →
        ∃ e, b.tok.encodeSingle (encStr s) [true] = .ok (some e) ∧
          e.tokens = before.map (·.1) ++ ((piecesOf g s u).flatMap tok).map (·.value) ++ after.map (·.1) ∧
          e.ids = before.map (·.2) ++ ((piecesOf g s u).flatMap tok).map (·.id) ++ after.map (·.2)) ∧
      ((∀ w ∈ piecesOf g s u, modelFn E a (encStr w) ≠ .panic) → (∃ w ∈ piecesOf g s u, modelFn E a (encStr w) = .err) →
        b.tok.encodeSingle (encStr s) [true] = .err) := by
  obtain ⟨n', en, hnorm⟩ := normSection_normalizes hn
  obtain rfl : n' = n := by rw [en] at hcn; exact Res.ok.inj hcn
  obtain ⟨p, ep, hcut⟩ := preSection_cuts hp
  obtain ⟨pc, p1, p2⟩ := surrounds_post hproc
  refine ⟨_, fromReader_ok (tr := none) ha en ep p1 hd h1 h2 h3 (by rw [htr]; rfl), rfl, rfl, ?_, ?_⟩
  · intro tok hm
    obtain ⟨pt, pt', e1, e2, e3⟩ := pieces_ready (t := ⟨re, reN, n'.map (normalizerOf E), p.map (preFn E), some (modelFn E a)⟩)
      (hnorm _ rfl) h4 h5 (hcut _ rfl)
    obtain ⟨e, k1, k2, k3, _, rows, rfl⟩ := holding_encode e1 e2 e3 (tok := tok)
      (fun w hw => ⟨_, rfl, (hm w hw).1, (hm w hw).2.1, (hm w hw).2.2⟩) 0 .byte
    obtain ⟨r, l1, l2, l3⟩ := p2 rows
    refine ⟨r, ?_, by rw [l3, k3], by rw [l2, k2]⟩
    rw [hpad]
    simp only [createPadding, Tokenizer.encodeSingle, Tokenizer.encode, Tokenizer.encodeWith, k1, Res.bind_ok, List.headD_cons]
    exact l1
  · intro hm hb
    have := C100_fails ⟨re, reN, n'.map (normalizerOf E), p.map (preFn E), some (modelFn E a)⟩ s u g (modelFn E a) rfl
      (hnorm _ rfl) h4 h5 (hcut _ rfl) hm (by
        obtain ⟨w, hw, h⟩ := hb
        exact ⟨w, hw, .inl h⟩) 0 .byte
    simp only [Tokenizer.encodeSingle, Tokenizer.encode, Tokenizer.encodeWith, this, Res.bind_err]

/-! ### C131 -/

/-- C131: a file with a WordLevel model, no decoder, a pre-tokenizer that cuts texts as described or none, and a
post-processor that puts special tokens around the text or none, makes a tokenizer that encodes a text as the words into
which the normalized text is cut, with their ids or that of the unknown token; `Decode` without special tokens gives the
words that are in the vocabulary (and the unknown token for the others, if it is not special) separated by spaces. If a
word is unknown and the unknown token is not in the vocabulary, encoding is an error. -/
theorem C131_words_partial (E : FileEnv) (ho : ∀ l, (E.order l).Perm l) (c : FileConfig) (m : List (Str × Val))
    (v : List (Str × Int)) (unk : Option Str) (hm : c.model = some m) (ht : Asks m [] "WordLevel")
    (hv : get m "vocab" = vocabVal v) (hunk : IsOpt m "unk_token" .str unk) (hgood : GoodVocab v)
    (hd : c.decoder = none) (htr : c.truncation = none) (hpad : c.padding = none)
    (s u : Str) (hn : NormSection E c.normalizer s u) (g : Str → List Str) (hp : PreSection E c.preTokenizer g)
    (before after : List (Str × Int)) (hproc : Surrounds c.postProcessor before after)
    (hplaces : ∀ x ∈ before ++ after, x ∈ v ∧ ∃ y ∈ c.addedTokens, y.special = true ∧ y.content = x.1)
    (hadd : ∀ x ∈ c.addedTokens, x.content ≠ [] ∧ x.singleWord = false ∧ ¬ x.content <:+: s ∧ ¬ x.content <:+: u) :
    ∃ b : Built, fromReader E (some c) = .ok b ∧
      ((∀ w ∈ piecesOf g s u, wordId v (unkName unk) w ≠ none) →
        ∃ e, b.tok.encodeSingle (encStr s) [true] = .ok (some e) ∧
          e.tokens = before.map (·.1) ++ piecesOf g s u ++ after.map (·.1) ∧
          e.ids.map some = (before.map (fun p => some p.2)) ++ (piecesOf g s u).map (wordId v (unkName unk)) ++
            after.map (fun p => some p.2) ∧
          b.decode e.ids true = .ok (encStr (joinSpace (((piecesOf g s u).map (shown v (unkName unk))).filter
            (fun w => decide (∀ y ∈ c.addedTokens, y.special = true → y.content ≠ w)))))) ∧
      ((∃ w ∈ piecesOf g s u, wordId v (unkName unk) w = none) → b.tok.encodeSingle (encStr s) [true] = .err) := by
  obtain ⟨f, un, m1, m2, m3, m4⟩ := C69_wordLevel m [] v unk ht hv hunk
  have hun : un = unkName unk := by
    unfold unkName
    cases unk with
    | none => exact m4 (.inl rfl)
    | some x =>
      by_cases hx : x = []
      · subst hx; exact m4 (.inr rfl)
      · rw [Option.getD_some, if_neg hx]; exact m3 x rfl hx
  have hvl := vocabList_ok hv
  have hst : FreshModel (vocabOf m (.wordLevel f un)) := by
    have := fresh_good hgood
    rw [← hvl] at this
    exact this
  obtain ⟨n, en, _⟩ := normSection_normalizes hn
  have habs : ∀ t : Str, ∀ x ∈ c.addedTokens, ¬ x.content <:+: t → Absent (n.map (normalizerOf E)) t x.token := by
    intro t x hx ht
    obtain ⟨h0, h1, _⟩ := hadd x hx
    refine ⟨h0, x.content, h0, ht, fun _ => rfl, fun h => ?_⟩
    exact absurd (h1.symm.trans h) (by simp)
  obtain ⟨T, re, reN, k1, k2, k3, k4, k5, k6, k7⟩ := load_quiet hst c.addedTokens E.wordChar
    (norm := n.map (normalizerOf E)) ho s u
    (fun x hx _ => habs s x hx (hadd x hx).2.2.1) (fun x hx _ => habs u x hx (hadd x hx).2.2.2)
  obtain ⟨b, b1, b2, b3, b4, b5⟩ := file_encode (E := E) (c := c) (by rw [hm, hd]; exact m1) hn hp hproc
    (dec := none) (by rw [hd]; rfl) htr hpad en (by rw [hm]; exact k1) k2 k3 k4 k5
  have hmod : ∀ w, modelFn E (.wordLevel f un) (encStr w) =
      match wordId v (unkName unk) w with
      | some i => .ok (some [⟨i, w, (0, ((blen w : Nat) : Int))⟩])
      | none => .err := by
    intro w
    simp only [modelFn, wordLevelModel, wordLevelTokenize, decStr_enc, m2, hun, wordId]
    cases mget v w with
    | some i => rfl
    | none => cases mget v (unkName unk) <;> rfl
  refine ⟨b, b1, ?_, ?_⟩
  · intro hk
    obtain ⟨e, h1, h2, h3⟩ := b4 (fun w => [⟨(wordId v (unkName unk) w).getD 0, w, (0, ((blen w : Nat) : Int))⟩]) (by
      intro w hw
      obtain ⟨i, hi⟩ := Option.ne_none_iff_exists'.mp (hk w hw)
      refine ⟨by rw [hmod, hi]; rfl, by simp, ?_⟩
      intro x hx
      rw [List.mem_singleton] at hx
      subst hx
      dsimp only
      omega)
    rw [← List.map_eq_flatMap, List.map_map] at h2 h3
    have hid : ∀ t i, mget v t = some i → T.idToToken i = some t := by
      intro t i h
      apply k6
      show mget (vocabList m) t = some i
      rw [hvl, h]
    refine ⟨e, h1, by rw [h2]; simp [Function.comp_def], ?_, ?_⟩
    · rw [h3, List.map_append, List.map_append, List.map_map, List.map_map, List.map_map]
      refine congrArg (· ++ _) (congrArg (_ ++ ·) ?_)
      apply List.map_congr_left
      intro w hw
      obtain ⟨i, hi⟩ := Option.ne_none_iff_exists'.mp (hk w hw)
      simp only [Function.comp_apply, hi, Option.getD_some]
    · have hsp : ∀ x ∈ before ++ after, T.idToToken x.2 = some x.1 ∧ T.isSpecial x.1 = true := by
        intro x hx
        obtain ⟨g1, y, hy, g2, g3⟩ := hplaces x hx
        exact ⟨hid _ _ ((mget_mem hgood.names _ _).2 g1), (k7 _).2 ⟨g3 ▸ (hadd y hy).1, y, hy, g2, g3⟩⟩
      have hids : (piecesOf g s u).map ((fun x : Token => x.id) ∘
          fun w => ⟨(wordId v (unkName unk) w).getD 0, w, (0, ((blen w : Nat) : Int))⟩) =
          ((piecesOf g s u).map (fun w => (shown v (unkName unk) w, (wordId v (unkName unk) w).getD 0))).map (·.2) := by
        rw [List.map_map]; rfl
      simp only [Built.decode, b3, Option.map_none]
      rw [b2, h3, decodeTokens_append, decodeTokens_append, decodeTokens_special before (fun x hx => hsp x (by simp [hx])),
        decodeTokens_special after (fun x hx => hsp x (by simp [hx])), List.nil_append, List.append_nil, hids, kept_filter,
        List.map_map, joinStr_joinSpace]
      · refine congrArg (fun l => Res.ok (encStr (joinSpace l))) ?_
        show ((piecesOf g s u).map (shown v (unkName unk))).filter _ = _
        apply List.filter_congr
        intro w _
        cases hq : T.isSpecial w with
        | false =>
          symm
          rw [Bool.not_false, decide_eq_true_eq]
          rintro y hy h1 rfl
          rw [(k7 _).2 ⟨(hadd y hy).1, y, hy, h1, rfl⟩] at hq
          cases hq
        | true =>
          symm
          obtain ⟨_, y, hy, g1, g2⟩ := (k7 _).1 hq
          rw [Bool.not_true, decide_eq_false_iff_not]
          exact fun h => h y hy g1 g2
      · intro p hp
        obtain ⟨w, hw, rfl⟩ := List.mem_map.mp hp
        obtain ⟨i, hi⟩ := Option.ne_none_iff_exists'.mp (hk w hw)
        apply hid
        simp only [hi, Option.getD_some, shown]
        unfold wordId at hi
        cases hw' : mget v w with
        | some j => rw [hw'] at hi; cases hi; simp [hw']
        | none => rw [hw'] at hi; simpa using hi
  · rintro ⟨w, hw, h⟩
    apply b5
    · intro w _ h
      rw [hmod] at h
      cases hi : wordId v (unkName unk) w with
      | none => rw [hi] at h; cases h
      | some i => rw [hi] at h; cases h
    · exact ⟨w, hw, by rw [hmod, h]⟩

/-! ### A case -/

def exampleWordVocab : List (Str × Int) := [(['a'], 0), (['b'], 1), ("<unk>".toList, 2)]

/-- A file with a WordLevel model, whose words are separated by hyphens. -/
def exampleWordFile : FileConfig where
  model := some [("type".toList, .str "WordLevel".toList), ("vocab".toList, vocabVal exampleWordVocab)]
  decoder := none
  normalizer := none
  preTokenizer := some [("type".toList, .str "Delimiter".toList), ("delimiter".toList, .str ['-'])]
  postProcessor := none
  addedTokens := [{ id := 3, content := ['[', 'M', ']'], special := true }]
  truncation := none
  padding := none

example (E : FileEnv) (ho : ∀ l, (E.order l).Perm l) : ∃ b e, fromReader E (some exampleWordFile) = .ok b ∧
    b.tok.encodeSingle (encStr "a-c-b".toList) [true] = .ok (some e) ∧ e.tokens = [['a'], ['c'], ['b']] ∧
    e.ids = [0, 2, 1] ∧ b.decode e.ids true = .ok (encStr "a <unk> b".toList) := by
  obtain ⟨b, h1, h2, _⟩ := C131_words_partial E ho exampleWordFile _ exampleWordVocab none rfl (.given _ (by rfl)) (by rfl)
    (by unfold IsOpt; rfl) ⟨by decide +kernel, by decide +kernel, by decide +kernel⟩ rfl rfl rfl "a-c-b".toList "a-c-b".toList
    (.inl ⟨rfl, rfl⟩) _ (.inr ⟨_, _, rfl, .delimiter _ '-' (by unfold TypeIs; rfl) (by unfold StrIs; rfl), .delimiter '-'⟩) [] []
    (.inl ⟨rfl, rfl, rfl⟩) (by simp) (by
      intro x hx
      obtain rfl : x = { id := 3, content := ['[', 'M', ']'], special := true } := by simpa [exampleWordFile] using hx
      decide +kernel)
  obtain ⟨e, k1, k2, k3, k4⟩ := h2 (by decide +kernel)
  refine ⟨b, e, h1, k1, by rw [k2]; decide +kernel, ?_, by rw [k4]; decide +kernel⟩
  have : e.ids.map some = ([0, 2, 1] : List Int).map some := by rw [k3]; decide +kernel
  exact List.map_injective_iff.2 (fun _ _ h => Option.some.inj h) this

/-- The same with one word only. -/
def exampleOneWord : FileConfig :=
  let m : List (Str × Val) := [("type".toList, .str "WordLevel".toList), ("vocab".toList, vocabVal [(['a'], 0)])]
  { exampleWordFile with model := some m }

-- an unknown word without an unknown token
example (E : FileEnv) (ho : ∀ l, (E.order l).Perm l) :
    ∃ b, fromReader E (some exampleOneWord) = .ok b ∧
      b.tok.encodeSingle (encStr "a-c".toList) [true] = .err := by
  obtain ⟨b, h1, _, h3⟩ := C131_words_partial E ho exampleOneWord _ [(['a'], 0)] none rfl
    (.given _ (by rfl)) (by rfl)
    (by unfold IsOpt; rfl) ⟨by decide +kernel, by decide +kernel, by decide +kernel⟩ rfl rfl rfl "a-c".toList "a-c".toList
    (.inl ⟨rfl, rfl⟩) _ (.inr ⟨_, _, rfl, .delimiter _ '-' (by unfold TypeIs; rfl) (by unfold StrIs; rfl), .delimiter '-'⟩) [] []
    (.inl ⟨rfl, rfl, rfl⟩) (by simp) (by
      intro x hx
      obtain rfl : x = { id := 3, content := ['[', 'M', ']'], special := true } := by simpa [exampleOneWord, exampleWordFile] using hx
      decide +kernel)
  exact ⟨b, h1, h3 ⟨['c'], by decide +kernel, by decide +kernel⟩⟩

end Tok.Whole
