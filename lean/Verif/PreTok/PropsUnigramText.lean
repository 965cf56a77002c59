import Verif.PreTok.PropsInsideUnigram
import Verif.PreTok.PropsPipeline
import Verif.PreTok.PropsTokenizers
import Verif.Unigram.PropsText

/-!
# C64 with a Unigram model
-/

set_option linter.unusedSectionVars false

namespace Tok.PreTok

open Tok.Norm

variable {K : Type} [AddCommGroup K] [LinearOrder K] [IsOrderedAddMonoid K]

theorem fuse_texts (uid : Int) (qs : List (Str × Int)) :
    ∃ ws : List Str, Unigram.fuseRuns uid (Unigram.inBytes qs) = ws.map encStr := by
  induction qs with
  | nil => exact ⟨[], rfl⟩
  | cons q qs ih =>
    obtain ⟨p, id⟩ := q
    obtain ⟨ws, h⟩ := ih
    cases qs with
    | nil =>
      refine ⟨[p], ?_⟩
      simp only [Unigram.inBytes, List.map_cons, List.map_nil, Unigram.fuseRuns]
      split <;> rfl
    | cons q qs =>
      obtain ⟨p', id'⟩ := q
      simp only [Unigram.inBytes, List.map_cons] at h ⊢
      rw [Unigram.fuseRuns]
      split
      · split
        · rw [h]
          cases ws with
          | nil => exact ⟨[p], rfl⟩
          | cons w ws => exact ⟨(p ++ w) :: ws, by simp [encStr_append]⟩
        · rw [h]; exact ⟨p :: ws, rfl⟩
      · rw [h]; exact ⟨p :: ws, rfl⟩

theorem encStr_flatten (ws : List Str) : (ws.map encStr).flatten = encStr ws.flatten := by
  induction ws with
  | nil => rfl
  | cons w ws ih => simp [encStr_append, ih]

/-- The pieces of a text are texts. -/
theorem unigram_pieces (u : Unigram K) (hu : Unigram.TextVocab u) (hb : u.bytesFallback = false) {uid : Int}
    (h : u.unkId = some uid) (s : Str) : ∃ ws : List Str, u.viterbi (encStr s) = .ok (ws.map encStr) ∧
      ws.flatten = s ∧ ∀ w ∈ ws, w ≠ [] := by
  obtain ⟨qs, w, _, _, hv⟩ := Unigram.C37_text u hu h s
  have ho : ∃ ws : List Str, u.output (Unigram.inBytes qs) = ws.map encStr := by
    unfold Unigram.output
    rw [h]
    cases u.fuseUnk with
    | true => exact fuse_texts uid qs
    | false => exact ⟨qs.map (·.1), by simp [Unigram.inBytes]⟩
  obtain ⟨ws, hw⟩ := ho
  rw [hw] at hv
  obtain ⟨h1, h2⟩ := Unigram.C37_concat u _ _ hb hv
  rw [encStr_flatten] at h1
  refine ⟨ws, hv, encStr_inj h1, ?_⟩
  rintro w hw rfl
  exact h2 _ (List.mem_map_of_mem hw) rfl

theorem toTokens_texts (u : Unigram K) {uid : Int} (h : u.unkId = some uid) (ws : List Str) : ∀ k,
    (u.tokensToTokenizer k (ws.map encStr)).map
        (fun t => (⟨t.1, decStr t.2.1, ((t.2.2.1 : Int), (t.2.2.2 : Int))⟩ : Token)) =
      (ws.zip (spansFrom k ws)).map (fun p =>
        ⟨((u.tokenToId (encStr p.1)).map (fun i : Nat => (i : Int))).getD uid, p.1, p.2⟩) := by
  induction ws with
  | nil => intro k; rfl
  | cons w ws ih =>
    intro k
    rw [List.map_cons, Unigram.tokensToTokenizer, h]
    cases hq : u.tokenToId (encStr w) with
    | none => simp [spansFrom, ih, decStr_enc, length_encStr, hq]
    | some i => simp [spansFrom, ih, decStr_enc, length_encStr, hq]

/-- A Unigram model with an unknown token cuts every text into pieces that follow each other; each token
is its piece with its place, and its id is that of the piece, or the unknown one. -/
theorem unigram_tokens (u : Unigram K) (hu : Unigram.TextVocab u) (hb : u.bytesFallback = false) {uid : Int}
    (h : u.unkId = some uid) (s : Str) : ∃ ws : List Str, ws.flatten = s ∧ (∀ w ∈ ws, w ≠ []) ∧
      unigramModel u (encStr s) = .ok (some ((ws.zip (spansFrom 0 ws)).map (fun p =>
        ⟨((u.tokenToId (encStr p.1)).map (fun i : Nat => (i : Int))).getD uid, p.1, p.2⟩))) := by
  obtain ⟨ws, h1, h2, h3⟩ := unigram_pieces u hu hb h s
  refine ⟨ws, h2, h3, ?_⟩
  unfold unigramModel Unigram.tokenize
  rw [hb, h1]
  simp only [Bool.false_eq_true, if_false, Res.bind_ok, toTokens_texts u h]

theorem spans_mem (ws : List Str) : ∀ (k : Nat) (p : Str × (Int × Int)), p ∈ ws.zip (spansFrom k ws) →
    ∃ as bs, ws = as ++ p.1 :: bs ∧
      p.2 = (((k + blen as.flatten : Nat) : Int), ((k + blen (as.flatten ++ p.1) : Nat) : Int)) := by
  induction ws with
  | nil => intro k p hp; cases hp
  | cons w ws ih =>
    intro k p hp
    rw [spansFrom, List.zip_cons_cons] at hp
    rcases List.mem_cons.mp hp with rfl | hp
    · exact ⟨[], ws, rfl, by simp⟩
    · obtain ⟨as, bs, e1, e2⟩ := ih _ p hp
      refine ⟨w :: as, bs, by rw [e1]; rfl, ?_⟩
      rw [e2]
      simp only [List.flatten_cons, List.append_assoc, blen_append]
      congr 2 <;> omega

theorem length_spansFrom (ws : List Str) : ∀ k, (spansFrom k ws).length = ws.length := by
  induction ws with
  | nil => intro _; rfl
  | cons w ws ih => intro k; simp [spansFrom, ih]

/-- **C64, Unigram.** Encoding a text with a Unigram model that has an unknown token and a vocabulary of
texts: every entry is the text between its offsets, and if the pre-tokenizer leaves nothing out, the
entries cover the text. -/
theorem C64_unigram_partial {t : Tk} {gaps : Bool} (u : Unigram K) (hu : Unigram.TextVocab u)
    (hb : u.bytesFallback = false) {uid : Int} (h : u.unkId = some uid) (hn : t.normalizer = none)
    (h1 : ProperSet t.splitRe) (h2 : ProperSet t.splitNormalizedRe)
    (hp : ∀ p, t.preTokenizer = some p → OnlyCuts gaps p) (hm : t.model = some (unigramModel u)) (s : Str) (typeId : Int) :
    ∃ e, t.encodeSingle (.raw (encStr s)) typeId .byte = .ok e ∧
      (∀ (k : Nat) v o, e.tokens[k]? = some v → e.offsets[k]? = some o →
        ∃ g b, s = g ++ v ++ b ∧ v ≠ [] ∧ o = (((blen g : Nat) : Int), ((blen (g ++ v) : Nat) : Int))) ∧
      (gaps = false → ∃ ws, ws.flatten = s ∧ (∀ w ∈ ws, w ≠ []) ∧ e.offsets = spansFrom 0 ws) := by
  have hf : ∀ m ts, unigramModel u (encStr m) = .ok (some ts) → ∀ x ∈ ts, Faithful m x := by
    intro m ts he x hx
    obtain ⟨ws, e1, e2, e3⟩ := unigram_tokens u hu hb h m
    rw [e3] at he
    cases he
    obtain ⟨p, hp, rfl⟩ := List.mem_map.mp hx
    obtain ⟨as, bs, f1, f2⟩ := spans_mem ws 0 p hp
    refine ⟨as.flatten, bs.flatten, ?_, e2 p.1 (by rw [f1]; simp), ?_⟩
    · rw [← e1, f1]; simp
    · simpa using f2
  have hplain : Plain t gaps := by
    refine ⟨hn, h1, h2, hp, _, hm, ?_⟩
    intro m hmne
    obtain ⟨ws, e1, e2, e3⟩ := unigram_tokens u hu hb h m
    refine ⟨_, e3, ?_, ?_⟩
    · cases ws with
      | nil => exact absurd e1.symm hmne
      | cons w ws => simp [spansFrom]
    · intro x hx
      obtain ⟨a, b, k1, k2, k3⟩ := hf m _ e3 x hx
      exact ⟨a, x.value, b, k1, k2, k3⟩
  obtain ⟨e, g1, g2⟩ := C64_values_partial hplain (by
    intro f m ts hf' _ he
    rw [hm] at hf'
    cases hf'
    exact hf m ts he) s typeId
  refine ⟨e, g1, g2, ?_⟩
  rintro rfl
  obtain ⟨e', ws, k1, k2, k3, k4⟩ := C64_cover_partial hplain (by
    intro f m ts hf' hmne he
    rw [hm] at hf'
    cases hf'
    obtain ⟨ws, e1, e2, e3⟩ := unigram_tokens u hu hb h m
    rw [e3] at he
    cases he
    refine ⟨ws, e1, e2, ?_⟩
    rw [List.map_map]
    exact List.map_snd_zip (by rw [length_spansFrom])) s typeId
  rw [g1] at k1
  cases k1
  exact ⟨ws, k2, k3, k4⟩

/-! ### Cases -/

/-- A tokenizer that does not cut, with the vocabulary "<unk>", "a", "ab". -/
def unigramTk : Tk :=
  ⟨⟨[], fun _ => []⟩, ⟨[], fun _ => []⟩, none, none, some (unigramModel Unigram.textSample)⟩

/-- The hypotheses of `C64_unigram_partial` hold for it. -/
example (s : Str) : ∃ e, unigramTk.encodeSingle (.raw (encStr s)) 0 .byte = .ok e ∧
    ∃ ws, ws.flatten = s ∧ (∀ w ∈ ws, w ≠ []) ∧ e.offsets = spansFrom 0 ws := by
  have hp : ProperSet ⟨[], fun _ => []⟩ := properSet_none
  obtain ⟨e, h1, _, h2⟩ := C64_unigram_partial (t := unigramTk) (gaps := false) Unigram.textSample
    Unigram.textSample_text rfl (uid := 0) rfl rfl hp hp (fun p h => by cases h) rfl s 0
  exact ⟨e, h1, h2 rfl⟩

example : okAnd (unigramTk.encodeSingle (.raw (encStr "abéa".toList)) 0 .byte)
    (fun e => decide (e.ids = [2, 0, 1] ∧ e.tokens = ["ab".toList, "é".toList, "a".toList] ∧
      e.offsets = [(0, 2), (2, 4), (4, 5)])) = true := by decide +kernel

end Tok.PreTok
