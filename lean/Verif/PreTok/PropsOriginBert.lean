import Verif.PreTok.PropsOriginNorm
import Verif.Norm.PropsBert

/-!
# C112: texts that the BERT normalizer only puts in lower case
-/

namespace Tok.PreTok

open Tok.Norm

theorem bert_shift {b : Bert} {T : Tables} {n n' : NStr} (h : b.normalize T n = .ok n') : n'.shift = n.shift := by
  unfold Bert.normalize at h
  obtain ⟨n1, h1, h⟩ := Res.bind_eq_ok.mp h
  obtain ⟨n2, h2, h⟩ := Res.bind_eq_ok.mp h
  have e1 : n1.shift = n.shift := by
    split at h1
    · unfold NStr.cleanText NStr.transform at h1; exact (transformRange_places h1).1
    · cases h1; rfl
  have e2 : n2.shift = n1.shift := by
    split at h2
    · unfold NStr.handleChinese NStr.transform at h2; exact (transformRange_places h2).1
    · cases h2; rfl
  have e3 : ∀ c : Bool, (if c then n2.recase T.lower else n2).shift = n2.shift := by intro c; cases c <;> rfl
  simp only at h
  split at h
  · unfold NStr.removeAccents NStr.filter NStr.transform at h
    rw [(transformRange_places h).1, e3, e2, e1]
  · cases h
    rw [e3, e2, e1]

theorem alignsOf_chars (g : Char → Char) (m : Str) : ∀ k, (∀ c ∈ m, (g c).utf8Size = c.utf8Size) →
    alignsOf (m.map (fun c => ([c], [g c]))) k = byteRanges m k := by
  induction m with
  | nil => intro k _; rfl
  | cons c m ih =>
    intro k h
    rw [List.map_cons, alignsOf, byteRanges]
    simp only [blen_cons, blen_nil, Nat.add_zero, h c (by simp)]
    rw [ih _ (fun c hc => h c (by simp [hc]))]
    push_cast
    rfl

theorem rights_chars (g : Char → Char) (m : Str) : rights (m.map (fun c => ([c], [g c]))) = m.map g := by
  induction m with
  | nil => rfl
  | cons c m ih => rw [List.map_cons, rights_cons, ih]; rfl

/-- **C112.** The BERT normalizer with any options, for a text without control characters, ideographs and
marks, whose lower case `low` has as many bytes character by character: every character is a block with its
lower case. -/
theorem C112_bert_partial (t : Tk) (b : Bert) (T : Tables) (s : Str) (low : Char → Char)
    (hn : t.normalizer = some (b.normalize T))
    (h1 : ∀ c ∈ s, ¬ Unwanted T.ctl c) (h2 : ∀ c ∈ s, ¬ Cjk c)
    (hl : b.lowercase = true → ∀ m : Str, T.lower (encStr m) = encStr (m.map low))
    (hs : ∀ c ∈ s, (low c).utf8Size = c.utf8Size)
    (h3 : ∀ c ∈ s, T.mn (if b.lowercase then low c else c) = false ∧ (if b.lowercase then low c else c) ≠ '\x00') :
    Rewrites t s (fun m => m.map (fun c => ([c], [if b.lowercase then low c else c]))) := by
  refine ⟨fun m => lefts_chars (fun c => [if b.lowercase then low c else c]) m, ?_⟩
  intro u m x y hf hm h
  obtain ⟨⟨v, hv⟩, hx, _⟩ := hf
  have hmem : ∀ c ∈ m, c ∈ s := by intro c hc; rw [hv]; simp [hc]
  have h := normalizeOrDie_ok hn h
  have hsz : (m.map low).map Char.utf8Size = m.map Char.utf8Size := by
    rw [List.map_map]
    exact List.map_congr_left (fun c hc => hs c (hmem c hc))
  have e : (if b.lowercase then m.map low else m) = m.map (fun c => if b.lowercase then low c else c) := by
    split <;> simp
  obtain ⟨y', k1, k2, _⟩ := bert_same b T (n := x) (cs := m) (ds := m.map low)
    ⟨hx.text, by rw [hx.original, length_encStr], hx.aligns, hx.alignsO⟩ hx.original
    (fun c hc => h1 c (hmem c hc)) (fun c hc => h2 c (hmem c hc)) (fun hb => ⟨hl hb m, hsz⟩) (by
      rw [e]
      intro d hd
      obtain ⟨c, hc, rfl⟩ := List.mem_map.mp hd
      exact h3 c (hmem c hc))
  rw [k1] at h
  cases h
  rw [e] at k2
  have hsz' : ∀ c ∈ m, (if b.lowercase then low c else c).utf8Size = c.utf8Size := by
    intro c hc
    split
    · exact hs c (hmem c hc)
    · rfl
  refine ⟨?_, ?_, bert_shift k1⟩
  · rw [k2.text]
    congr 1
    exact (rights_chars _ m).symm
  · rw [k2.aligns, alignsOf_chars (fun c => if b.lowercase then low c else c) m 0 hsz']
    refine (byteRanges_sizes m _ 0 ?_).1
    rw [List.map_map]
    exact List.map_congr_left (fun c hc => hsz' c hc)

/-! ### Example -/

def bertTables : Tables :=
  ⟨fun _ => false, fun c => c = '́', fun _ => false, fun bs => encStr ((runes bs).map (fun c => if c = 'É' then 'é' else c)),
    fun bs => (runes bs).map (fun c => [c]), fun _ => [], fun _ => false, fun _ => false, fun _ => false⟩

def bertTk : Tk :=
  { splitRe := ⟨[], fun _ => []⟩, splitNormalizedRe := ⟨[], fun _ => []⟩
    normalizer := some ((Bert.mk true true true true).normalize bertTables)
    preTokenizer := some (delimiterSplit ' ')
    model := some (wordLevelModel (fun _ => some 1) ['?']) }

example : Rewrites bertTk ['É', ' ', 'É', 'b'] (fun m => m.map (fun c => ([c], [if c = 'É' then 'é' else c]))) ∧
    (bertTk.encodeSingle (.raw (encStr ['É', ' ', 'É', 'b'])) 0 .byte).bind (fun e => .ok (e.tokens, e.offsets)) =
      .ok ([['é'], ['é', 'b']], [(0, 2), (3, 6)]) := by
  refine ⟨?_, by decide +kernel⟩
  refine C112_bert_partial bertTk (Bert.mk true true true true) bertTables _ (fun c => if c = 'É' then 'é' else c) rfl
    (by decide) (by decide) ?_ (by decide) (by decide)
  · intro _ m
    simp only [bertTables, runes_encStr]

end Tok.PreTok
