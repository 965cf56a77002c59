import Verif.Word.Builders
import Verif.Word.PropsBuilder
import Verif.Word.Props

/-! # C114: a model has the settings that its builder was given last -/

namespace Tok

open Tok.Files (Merges)

/-! ### Specification -/

/-- The last of the calls that `f` recognizes. -/
def lastOf (f : α → Option β) (ks : List α) : Option β := (ks.filterMap f).getLast?

def BpeCall.files? : BpeCall → Option (Str × Str) | .files v m => some (v, m) | _ => none
def BpeCall.data? : BpeCall → Option (List (Str × Int) × Merges) | .vocabAndMerges v m => some (v, m) | _ => none
def BpeCall.capacity? : BpeCall → Option Int | .cacheCapacity n => some n | _ => none
def BpeCall.dropout? : BpeCall → Option Rat | .dropout p => some p | _ => none
def BpeCall.unk? : BpeCall → Option Str | .unkToken s => some s | _ => none
def BpeCall.pre? : BpeCall → Option Str | .continuingSubwordPrefix s => some s | _ => none
def BpeCall.suf? : BpeCall → Option Str | .endOfWordSuffix s => some s | _ => none

def WpCall.files? : WpCall → Option Str | .files s => some s | _ => none
def WpCall.vocab? : WpCall → Option (Option (List (Str × Int))) | .vocab v => some v | _ => none
def WpCall.unk? : WpCall → Option Str | .unkToken s => some s | _ => none
def WpCall.pre? : WpCall → Option Str | .continuingSubwordPrefix s => some s | _ => none
def WpCall.max? : WpCall → Option Int | .maxInputCharsPerWord n => some n | _ => none

/-! ### Lemmas -/

theorem lastOf_nil (f : α → Option β) : lastOf f [] = none := rfl

theorem lastOf_snoc (f : α → Option β) (ks : List α) (k : α) :
    lastOf f (ks ++ [k]) = (f k).or (lastOf f ks) := by
  unfold lastOf
  rw [List.filterMap_append]
  cases h : f k with
  | none => simp [h]
  | some b => simp [h]

theorem snoc_ind {P : List α → Prop} (h0 : P []) (h1 : ∀ ks k, P ks → P (ks ++ [k])) : ∀ ks, P ks := by
  intro ks
  have : ∀ n (ks : List α), ks.length = n → P ks := by
    intro n
    induction n with
    | zero => intro ks h; rw [List.length_eq_zero_iff.mp h]; exact h0
    | succ n ih =>
      intro ks h
      rcases List.eq_nil_or_concat ks with e | ⟨l, k, e⟩
      · subst e; simp at h
      · subst e
        rw [List.concat_eq_append] at h ⊢
        exact h1 l k (ih l (by simpa using h))
  exact this _ ks rfl

/-- The configuration after some calls. -/
theorem bpeCalls_eq (ks : List BpeCall) : ks.foldl bpeCall newBpeBuilder =
    ⟨lastOf BpeCall.files? ks, ((lastOf BpeCall.data? ks).getD ([], [])).1, ((lastOf BpeCall.data? ks).getD ([], [])).2,
      (lastOf BpeCall.capacity? ks).getD 10000, lastOf BpeCall.dropout? ks, lastOf BpeCall.unk? ks,
      lastOf BpeCall.pre? ks, lastOf BpeCall.suf? ks⟩ := by
  induction ks using snoc_ind with
  | h0 => rfl
  | h1 ks k ih =>
  rw [List.foldl_append, ih]
  simp only [lastOf_snoc]
  cases k <;> simp [bpeCall, BpeCall.files?, BpeCall.data?, BpeCall.capacity?, BpeCall.dropout?, BpeCall.unk?,
    BpeCall.pre?, BpeCall.suf?]

theorem wpCalls_eq (ks : List WpCall) : ks.foldl wpCall newWpBuilder =
    ⟨(lastOf WpCall.files? ks).getD [], (lastOf WpCall.vocab? ks).getD (some []),
      (lastOf WpCall.unk? ks).getD "[UNK]".toList, (lastOf WpCall.pre? ks).getD "##".toList,
      (lastOf WpCall.max? ks).getD 100⟩ := by
  induction ks using snoc_ind with
  | h0 => rfl
  | h1 ks k ih =>
  rw [List.foldl_append, ih]
  simp only [lastOf_snoc]
  cases k <;> simp [wpCall, WpCall.files?, WpCall.vocab?, WpCall.unk?, WpCall.pre?, WpCall.max?]

theorem bpeBuild_ok {V : Type} {read : Str → Str → Res (List (Str × Int) × Merges)}
    {order : List (Str × Int) → List (Str × Int)} {c c' : BpeConfig} {b : Bpe V}
    (h : bpeBuild V read order c = .ok (b, c')) : ∃ s, bpeSource read c = .ok s ∧
      b = ⟨s.1, invertVocab (order s.1), s.2, buildCache V c.capacity, c.dropout, c.unk, c.pre, c.suf⟩ ∧
      c' = { c with vocab := s.1, merges := s.2 } ∧ ∀ p, c.dropout = some p → 0 < p ∧ p ≤ 1 := by
  unfold bpeBuild at h
  split at h
  · cases h
  · next hd =>
    obtain ⟨s, hs, h⟩ := Res.bind_eq_ok.mp h
    cases h
    refine ⟨s, hs, rfl, rfl, ?_⟩
    intro p hp
    rw [hp] at hd
    simp only [Option.any_some, decide_eq_true_eq, not_or] at hd
    exact ⟨Rat.not_le.mp hd.1, Rat.not_lt.mp hd.2⟩

variable {V : Type} {read : Str → Str → Res (List (Str × Int) × Merges)} {order : List (Str × Int) → List (Str × Int)}

/-! ### C114 -/

/-- **C114.** Without `Files`, a BPE model has of every setting the value given last, and a default if none
was given: no tokens, no merges, room for 10000 words in the cache, no dropout, no unknown token, no prefix
and no suffix. -/
theorem C114_bpe_settings_partial (ks : List BpeCall) (hf : ∀ v m, BpeCall.files v m ∉ ks) {b : Bpe V} {c : BpeConfig}
    (h : bpeBuild V read order (ks.foldl bpeCall newBpeBuilder) = .ok (b, c)) :
    (b.vocab, b.merges) = (lastOf BpeCall.data? ks).getD ([], []) ∧ b.dropout = lastOf BpeCall.dropout? ks ∧
      b.unk = lastOf BpeCall.unk? ks ∧ b.pre = lastOf BpeCall.pre? ks ∧ b.suf = lastOf BpeCall.suf? ks ∧
      b.cache.map (·.capacity) = (if (lastOf BpeCall.capacity? ks).getD 10000 = 0 then none
        else some ((lastOf BpeCall.capacity? ks).getD 10000)) ∧
      ∀ k, b.cache = some k → k.cmap = [] := by
  have hnf : lastOf BpeCall.files? ks = none := by
    unfold lastOf
    have : ks.filterMap BpeCall.files? = [] := by
      rw [List.filterMap_eq_nil_iff]
      intro k hk
      cases k with
      | files v m => exact absurd hk (hf v m)
      | _ => rfl
    rw [this]; rfl
  rw [bpeCalls_eq, hnf] at h
  obtain ⟨s, hs, rfl, _⟩ := bpeBuild_ok h
  simp only [bpeSource] at hs
  cases hs
  refine ⟨rfl, rfl, rfl, rfl, rfl, ?_, ?_⟩
  · simp only [buildCache]
    by_cases hn : (lastOf BpeCall.capacity? ks).getD 10000 = 0
    · rw [if_pos hn, if_neg (by omega)]; rfl
    · rw [if_neg hn, if_pos hn]; rfl
  · intro k hk
    simp only [buildCache] at hk
    split at hk
    · cases hk; rfl
    · cases hk

/-- **C114.** With `Files`, vocabulary and merges are those of the files named last. The other settings are
as they are without. -/
theorem C114_bpe_files (ks : List BpeCall) {v m : Str} (hf : lastOf BpeCall.files? ks = some (v, m)) {b : Bpe V}
    {c : BpeConfig} (h : bpeBuild V read order (ks.foldl bpeCall newBpeBuilder) = .ok (b, c)) :
    read v m = .ok (b.vocab, b.merges) ∧ b.dropout = lastOf BpeCall.dropout? ks ∧
      b.unk = lastOf BpeCall.unk? ks ∧ b.pre = lastOf BpeCall.pre? ks ∧ b.suf = lastOf BpeCall.suf? ks ∧
      b.cache = buildCache V ((lastOf BpeCall.capacity? ks).getD 10000) := by
  rw [bpeCalls_eq, hf] at h
  obtain ⟨s, hs, rfl, _⟩ := bpeBuild_ok h
  exact ⟨hs, rfl, rfl, rfl, rfl, rfl⟩

/-- **C114.** `Build` fails exactly if the last dropout is not greater than 0 and at most 1 or the last files
cannot be read; the other settings are all accepted. -/
theorem C114_bpe_fails (ks : List BpeCall) :
    (∃ b c, bpeBuild V read order (ks.foldl bpeCall newBpeBuilder) = .ok (b, c)) ↔
      (∀ p, lastOf BpeCall.dropout? ks = some p → 0 < p ∧ p ≤ 1) ∧
      (∀ v m, lastOf BpeCall.files? ks = some (v, m) → ∃ r, read v m = .ok r) := by
  rw [bpeCalls_eq]
  constructor
  · rintro ⟨b, c, h⟩
    obtain ⟨s, hs, _, _, hd⟩ := bpeBuild_ok h
    refine ⟨hd, fun v m hf => ⟨s, ?_⟩⟩
    simp only [bpeSource, hf] at hs
    exact hs
  · rintro ⟨hd, hf⟩
    have hs : ∃ s, bpeSource read ⟨lastOf BpeCall.files? ks, ((lastOf BpeCall.data? ks).getD ([], [])).1,
      ((lastOf BpeCall.data? ks).getD ([], [])).2, (lastOf BpeCall.capacity? ks).getD 10000, lastOf BpeCall.dropout? ks,
      lastOf BpeCall.unk? ks, lastOf BpeCall.pre? ks, lastOf BpeCall.suf? ks⟩ = .ok s := by
      unfold bpeSource
      cases hfs : lastOf BpeCall.files? ks with
      | none => exact ⟨_, rfl⟩
      | some p =>
        obtain ⟨r, hr⟩ := hf p.1 p.2 hfs
        exact ⟨r, hr⟩
    obtain ⟨s, hs⟩ := hs
    unfold bpeBuild
    rw [if_neg ?_, hs]
    · exact ⟨_, _, rfl⟩
    · simp only
      cases hdr : lastOf BpeCall.dropout? ks with
      | none => simp
      | some p =>
        have := hd p hdr
        simp only [Option.any_some, decide_eq_true_eq, not_or]
        exact ⟨Rat.not_le.mpr this.1, Rat.not_lt.mpr this.2⟩

/-- **C114.** Building again gives the same model. -/
theorem C114_bpe_again {c c' : BpeConfig} {b : Bpe V} (h : bpeBuild V read order c = .ok (b, c')) :
    bpeBuild V read order c' = .ok (b, c') := by
  obtain ⟨s, hs, rfl, rfl, hd⟩ := bpeBuild_ok h
  have hs' : bpeSource read { c with vocab := s.1, merges := s.2 } = .ok s := by
    unfold bpeSource at hs ⊢
    cases hf : c.files with
    | none => rfl
    | some p => rw [hf] at hs; exact hs
  unfold bpeBuild
  rw [if_neg ?_, hs']
  · rfl
  · simp only
    cases hdr : c.dropout with
    | none => simp
    | some p =>
      have := hd p hdr
      simp only [Option.any_some, decide_eq_true_eq, not_or]
      exact ⟨Rat.not_le.mpr this.1, Rat.not_lt.mpr this.2⟩

/-- **C114.** `NewBPE` is the builder with `VocabAndMerges`, `NewBpeFromFiles` with `Files`. -/
theorem C114_bpe_new (v : List (Str × Int)) (m : Merges) (f g : Str) :
    newBpe V read order v m = (bpeBuild V read order ([BpeCall.vocabAndMerges v m].foldl bpeCall newBpeBuilder)).bind
      (fun p => .ok p.1) ∧
    newBpeFromFiles V read order f g = bpeBuild V read order ([BpeCall.files f g].foldl bpeCall newBpeBuilder) := by
  constructor
  · simp only [newBpe, bpeBuild, newBpeBuilder, List.foldl_cons, List.foldl_nil, bpeCall, bpeSource, Option.any_none,
      Bool.false_eq_true, if_false, Res.bind_ok]
    rfl
  · rfl

/-- **C114.** If different tokens have different ids, the model gives ids and tokens back, whatever the order
in which the vocabulary is iterated. -/
theorem C114_bpe_ids_partial {c c' : BpeConfig} {b : Bpe V} (h : bpeBuild V read order c = .ok (b, c'))
    (ho : ∀ v, (order v).Perm v) (hv : IsMap b.vocab) (hd : IdsDiffer b.vocab) (t : Str) (i : Int) :
    b.tokenToId t = some i ↔ b.idToToken i = some t := by
  obtain ⟨s, hs, rfl, _⟩ := bpeBuild_ok h
  constructor
  · intro h
    obtain ⟨t', h'⟩ := invert_has (ho _) h
    rw [hd t t' i h (invert_some hv (ho _) h')]
    exact h'
  · exact fun h => invert_some hv (ho _) h

/-- **C114, violated.** A vocabulary and merges given after `Files` have no effect. -/
theorem C114_files_win_violated (ks : List BpeCall) (f : Str × Str) (hf : lastOf BpeCall.files? ks = some f)
    (v : List (Str × Int)) (m : Merges) :
    (bpeBuild V read order ((ks ++ [BpeCall.vocabAndMerges v m]).foldl bpeCall newBpeBuilder)).bind (fun p => .ok p.1) =
      (bpeBuild V read order (ks.foldl bpeCall newBpeBuilder)).bind (fun p => .ok p.1) := by
  rw [bpeCalls_eq, bpeCalls_eq]
  simp only [lastOf_snoc]
  simp [BpeCall.files?, BpeCall.capacity?, BpeCall.dropout?, BpeCall.unk?,
    BpeCall.pre?, BpeCall.suf?, hf, bpeBuild, bpeSource]

/-- **C114, violated.** A dropout of 0, which is said to be none, is refused. -/
theorem C114_dropout_violated (ks : List BpeCall) :
    bpeBuild V read order ((ks ++ [BpeCall.dropout 0]).foldl bpeCall newBpeBuilder) = .err := by
  rw [bpeCalls_eq]
  simp only [lastOf_snoc]
  simp [BpeCall.dropout?, bpeBuild]

/-- **C114, violated.** With a cache capacity of 0, which is said to disable the cache, and no dropout, the
model crashes on every word. -/
theorem C114_cache_violated (ks : List BpeCall) (hd : ∀ p, BpeCall.dropout p ∉ ks) {b : Bpe V} {c : BpeConfig}
    (h : bpeBuild V read order ((ks ++ [BpeCall.cacheCapacity 0]).foldl bpeCall newBpeBuilder) = .ok (b, c)) {R : Type}
    (merge dropped : Str → Res V) (toTokens : V → R) (empty : R) (w : Str) (hw : w ≠ []) :
    b.tokenize merge dropped toTokens empty w = .panic := by
  have hnd : lastOf BpeCall.dropout? ks = none := by
    unfold lastOf
    have : ks.filterMap BpeCall.dropout? = [] := by
      rw [List.filterMap_eq_nil_iff]
      intro k hk
      cases k with
      | dropout p => exact absurd hk (hd p)
      | _ => rfl
    rw [this]; rfl
  rw [bpeCalls_eq] at h
  obtain ⟨s, hs, rfl, _⟩ := bpeBuild_ok h
  unfold Bpe.tokenize
  rw [if_neg (by simpa using hw)]
  simp [lastOf_snoc, BpeCall.dropout?, BpeCall.capacity?, hnd, buildCache, tokenizeWithCache]

/-- **C114.** A WordPiece model has of every setting the value given last, and the defaults "[UNK]", "##" and
100 if none was given. The vocabulary is that of the last file, if its name is not empty, else the one given
last. -/
theorem C114_wp_settings (rd : Str → Option (List (Str × Int))) (ks : List WpCall) {w : Wp}
    (h : wpBuild rd order (ks.foldl wpCall newWpBuilder) = .ok w) :
    w.unk = (lastOf WpCall.unk? ks).getD "[UNK]".toList ∧ w.pre = (lastOf WpCall.pre? ks).getD "##".toList ∧
      w.max = (lastOf WpCall.max? ks).getD 100 ∧
      some w.vocab = (match lastOf WpCall.files? ks with
        | none | some [] => (lastOf WpCall.vocab? ks).getD (some [])
        | some f => rd f) := by
  rw [wpCalls_eq] at h
  unfold wpBuild at h
  obtain ⟨p, hp, h⟩ := Res.bind_eq_ok.mp h
  simp only [wpSource] at hp h
  cases p with
  | none => cases h
  | some v =>
    cases h
    refine ⟨rfl, rfl, rfl, ?_⟩
    cases hf : lastOf WpCall.files? ks with
    | none => rw [hf] at hp; simp at hp; simp [hp]
    | some f =>
      rw [hf] at hp
      cases f with
      | nil => simp at hp; simp [hp]
      | cons c f =>
        simp only [Option.getD_some, ne_eq, reduceCtorEq, not_false_eq_true, if_true] at hp
        simp only
        cases hr : rd (c :: f) with
        | none => rw [hr] at hp; cases hp
        | some v' => rw [hr] at hp; cases hp; rfl

/-- **C114.** Building a WordPiece model never returns an error; it crashes exactly if the file cannot be read
or, without a file, the vocabulary is a nil pointer. -/
theorem C114_wp_fails (rd : Str → Option (List (Str × Int))) (c : WpConfig) :
    ((∃ w, wpBuild rd order c = .ok w) ↔ (if c.files = [] then c.vocab ≠ none else rd c.files ≠ none)) ∧
    (wpBuild rd order c = .panic ↔ (if c.files = [] then c.vocab = none else rd c.files = none)) := by
  unfold wpBuild wpSource
  by_cases hf : c.files = []
  · simp only [hf, ne_eq, not_true_eq_false, if_false, if_true]
    cases hv : c.vocab with
    | none => simp
    | some v => simp
  · simp only [ne_eq, hf, not_false_eq_true, if_true, if_false]
    cases hv : rd c.files with
    | none => simp
    | some v => simp

/-- **C114.** `NewWordPieceFromFile` has the vocabulary of the file, the unknown token and the limit that were
given, and else the defaults; it fails exactly if the file cannot be read. -/
theorem C114_wp_file (rd : Str → Option (List (Str × Int))) (f unk : Str) (max : List Int) :
    newWpFromFile rd order f unk max = (match rd f with
      | none => .err
      | some v => .ok ⟨v, invertVocab (order v), unk, "##".toList, max.head?.getD 100⟩) := by
  unfold newWpFromFile
  cases rd f with
  | none => rfl
  | some v =>
    cases max with
    | nil => rfl
    | cons n l => rfl

/-- **C114.** What the settings do: a word of more characters than the limit given last becomes the unknown token
given last; the rest of a word after its first part is looked up behind the prefix given last. -/
theorem C114_wp_tokenize (rd : Str → Option (List (Str × Int))) (ks : List WpCall) {w : Wp}
    (h : wpBuild rd order (ks.foldl wpCall newWpBuilder) = .ok w) (t : Str) :
    ((lastOf WpCall.max? ks).getD 100 < t.length → ∀ i, w.tokenToId ((lastOf WpCall.unk? ks).getD "[UNK]".toList) = some i →
      w.model.tokenize t = .ok [⟨i, (lastOf WpCall.unk? ks).getD "[UNK]".toList, (0, (t.length : Int))⟩]) ∧
    (∀ a b i j, t = a ++ b → a ≠ [] → b ≠ [] → (t.length : Int) ≤ (lastOf WpCall.max? ks).getD 100 →
      w.tokenToId a = some i → (∀ a', a <+: a' → a' <+: t → a' ≠ a → w.tokenToId a' = none) →
      w.tokenToId ((lastOf WpCall.pre? ks).getD "##".toList ++ b) = some j →
      w.model.tokenize t = .ok [⟨i, a, (0, (a.length : Int))⟩,
        ⟨j, (lastOf WpCall.pre? ks).getD "##".toList ++ b, ((a.length : Int), (t.length : Int))⟩]) := by
  obtain ⟨h1, h2, h3, _⟩ := C114_wp_settings rd ks h
  rw [← h1, ← h2, ← h3]
  refine ⟨fun hl i hi => ?_, ?_⟩
  · rw [C34_unknown w.model t (.inl hl)]
    have : w.model.vocab w.model.unk = some i := hi
    rw [this]
    rfl
  · intro a b i j e ha hb hl hi hno hj
    have hg : Greedy w.model true t [(a, i), (b, j)] := by
      rw [e]
      refine .cons true a b i _ ha hi ?_ ?_
      · intro p' r' e' hl'
        have h1 : p' <+: t := ⟨r', by rw [e', e]⟩
        have h2 : a <+: p' := List.prefix_of_prefix_length_le ⟨b, e.symm⟩ h1 (Nat.le_of_lt hl')
        exact hno p' h2 h1 (by intro h; rw [h] at hl'; exact absurd hl' (Nat.lt_irrefl _))
      · have := Greedy.cons (m := w.model) false b [] j [] hb hj (by
          intro p' r' e' hl'
          have := congrArg List.length e'
          rw [List.length_append, List.length_append] at this
          simp only [List.length_nil] at this
          omega) (.nil false)
        rwa [List.append_nil] at this
    rw [C34_greedy w.model t hl _ hg]
    simp [piecesToTokens, WordPiece.entry, Wp.model, e]

/-- **C114.** The builder made of a file builds the model with the vocabulary of that file and the defaults, and
ends the program if the file cannot be read. -/
theorem C114_wp_builderFile (rd : Str → Option (List (Str × Int))) (f : Str) (hf : f ≠ []) :
    wpBuild rd order (newWpBuilderFromFile f) = (match rd f with
      | none => .panic
      | some v => .ok ⟨v, invertVocab (order v), "[UNK]".toList, "##".toList, 100⟩) := by
  unfold newWpBuilderFromFile wpBuild wpSource
  simp only [wpCall, ne_eq, hf, not_false_eq_true, if_true]
  cases rd f with
  | none => rfl
  | some v => rfl

/-- **C114.** If different tokens have different ids, the WordPiece model gives ids and tokens back. -/
theorem C114_wp_ids_partial (rd : Str → Option (List (Str × Int))) {c : WpConfig} {w : Wp} (h : wpBuild rd order c = .ok w)
    (ho : ∀ v, (order v).Perm v) (hv : IsMap w.vocab) (hd : IdsDiffer w.vocab) (t : Str) (i : Int) :
    w.tokenToId t = some i ↔ w.idToToken i = some t := by
  unfold wpBuild at h
  obtain ⟨p, _, h⟩ := Res.bind_eq_ok.mp h
  cases p with
  | none => cases h
  | some v =>
    cases h
    constructor
    · intro h
      obtain ⟨t', h'⟩ := invert_has (ho _) h
      rw [hd t t' i h (invert_some hv (ho _) h')]
      exact h'
    · exact fun h => invert_some hv (ho _) h

/-- **C114.** A WordPiece model made of a BPE model has its vocabulary, its unknown token and its prefix, if
it has them, and the limit of 100 characters. -/
theorem C114_wp_fromBpe (rd : Str → Option (List (Str × Int))) (b : Bpe V) :
    newWpFromBpe rd order b =
      .ok ⟨b.vocab, invertVocab (order b.vocab), b.unk.getD "[UNK]".toList, b.pre.getD "##".toList, 100⟩ := by
  rfl

/-- **C114, violated.** The builder of a WordPiece model does not know the model: what it builds has neither its
vocabulary nor its settings. -/
theorem C114_wp_builder_violated (rd : Str → Option (List (Str × Int))) (ho : order [] = []) (w : Wp) :
    wpBuild rd order w.builder = .ok newWp := by
  simp [wpBuild, wpSource, Wp.builder, newWpBuilder, ho, newWp, invertVocab]

/-! ### Example -/

/-- Two tokens, and settings that are given twice. -/
def twiceCalls : List BpeCall :=
  [.unkToken ['x'], .vocabAndMerges [] [], .dropout 2, .unkToken ['u'], .vocabAndMerges [(['a'], 0), (['u'], 1)] [], .dropout (1/2)]

example : (∀ v m, BpeCall.files v m ∉ twiceCalls) ∧
    (bpeBuild Unit (fun _ _ => .err) id (twiceCalls.foldl bpeCall newBpeBuilder)).bind
      (fun p => .ok (p.1.unk, p.1.dropout.isSome, p.1.idToToken 1)) = .ok (some ['u'], true, some ['u']) ∧
    lastOf BpeCall.files? (twiceCalls ++ [.files ['v'] ['m']]) = some (['v'], ['m']) ∧
    (bpeBuild Unit (fun _ _ => .ok ([(['z'], 7)], [])) id ((twiceCalls ++ [BpeCall.files ['v'] ['m']]).foldl bpeCall newBpeBuilder)).bind
      (fun p => .ok p.1.vocab) = .ok [(['z'], 7)] := by
  refine ⟨?_, by decide +kernel, rfl, by decide +kernel⟩
  intro v m h
  simp [twiceCalls] at h

example : (wpBuild (fun _ => none) id ([WpCall.unkToken ['u'], .vocab (some [(['u'], 3)]), .maxInputCharsPerWord 5].foldl wpCall newWpBuilder)).bind
    (fun w => .ok (w.unk, w.pre, w.max, w.idToToken 3)) = .ok (['u'], ['#', '#'], 5, some ['u']) ∧
    IsMap [(['u'], 3)] ∧ IdsDiffer [(['u'], 3)] := by
  refine ⟨by decide +kernel, by unfold IsMap; decide, ?_⟩
  intro a b i ha hb
  simp only [mget] at ha hb
  split at ha
  · next h1 =>
    split at hb
    · next h2 => simp at h1 h2; rw [← h1, ← h2]
    · cases hb
  · cases ha

example : (wpBuild (fun _ => none) id ([WpCall.vocab (some [(['a', 'b'], 1), (['@', 'c'], 2), (['?'], 3)]), .unkToken ['?'],
    .continuingSubwordPrefix ['@'], .maxInputCharsPerWord 3].foldl wpCall newWpBuilder)).bind
    (fun w => (w.model.tokenize ['a', 'b', 'c']).bind (fun x => (w.model.tokenize ['a', 'b', 'c', 'd']).bind (fun y => .ok (x, y)))) =
    .ok ([⟨1, ['a', 'b'], (0, 2)⟩, ⟨2, ['@', 'c'], (2, 3)⟩], [⟨3, ['?'], (0, 4)⟩]) := by
  decide +kernel

end Tok
