import Verif.Unigram.PropsText
import Verif.PreTok.PropsInsideUnigram
import Verif.Vocab.PropsAdded

/-!
# Texts of known characters in a Unigram model
-/

namespace Tok.Unigram

set_option linter.unusedSectionVars false

open Tok.PreTok (unigramModel decStr decStr_enc)

variable {K : Type} [AddCommGroup K] [LinearOrder K] [IsOrderedAddMonoid K]

theorem segmText_pieces {u : Unigram K} {s : Str} {qs : List (Str × Int)} {w : K} (h : SegmText u s qs w)
    (hc : ∀ c ∈ s, u.tokenToId (encStr [c]) ≠ none) :
    (qs.map (·.1)).flatten = s ∧ ∀ q ∈ qs, q.1 ≠ [] ∧ q.1 <:+: s ∧ ∃ id : Nat, u.tokenToId (encStr q.1) = some id ∧ q.2 = id := by
  induction h with
  | nil => simp
  | known t s id ps w ht hl hid _ ih =>
    obtain ⟨h1, h2⟩ := ih (fun c hcm => hc c (by simp [hcm]))
    refine ⟨by simp [h1], ?_⟩
    intro q hq
    rcases List.mem_cons.mp hq with rfl | hq
    · exact ⟨ht, ⟨[], s, by simp⟩, id, hid, rfl⟩
    · obtain ⟨k1, ⟨a, b, k2⟩, k3⟩ := h2 q hq
      exact ⟨k1, ⟨t ++ a, b, by rw [← k2]; simp⟩, k3⟩
  | unknown c s uid ps w hn _ _ _ => exact absurd hn (hc c (by simp))

theorem segmText_known {u : Unigram K} (s : Str) (hc : ∀ c ∈ s, u.tokenToId (encStr [c]) ≠ none) :
    ∃ qs w, SegmText u s qs w := by
  induction s with
  | nil => exact ⟨[], 0, .nil⟩
  | cons c s ih =>
    obtain ⟨qs, w, hq⟩ := ih (fun d hd => hc d (by simp [hd]))
    cases h : u.tokenToId (encStr [c]) with
    | none => exact absurd h (hc c (by simp))
    | some id =>
      have hs : blen [c] ≤ 20 := by have := c.utf8Size_le_four; simp [blen]; omega
      exact ⟨_, _, .known [c] s id qs w (by simp) hs h hq⟩

theorem fuseRuns_none {uid : Int} (ps : List (Bytes × Int)) (h : ∀ p ∈ ps, p.2 ≠ uid) : fuseRuns uid ps = ps.map (·.1) := by
  induction ps with
  | nil => rfl
  | cons p ps ih =>
    obtain ⟨b, id⟩ := p
    rw [fuse_known b ps (h (b, id) (by simp)), ih (fun q hq => h q (by simp [hq]))]
    rfl

/-- A text of known characters in which the unknown token does not occur is cut into tokens of the vocabulary. -/
theorem viterbi_known (u : Unigram K) (hu : TextVocab u) (hf : u.bytesFallback = false) (s : Str)
    (hc : ∀ c ∈ s, u.tokenToId (encStr [c]) ≠ none)
    (hunk : ∀ (uid : Int) (t : Str), u.unkId = some uid → u.idToToken uid = some (encStr t) → ¬ t <:+: s) :
    ∃ ts : List Str, u.viterbi (encStr s) = .ok (ts.map encStr) ∧ ts.flatten = s ∧
      ∀ t ∈ ts, t ≠ [] ∧ ∃ id : Nat, u.tokenToId (encStr t) = some id := by
  have key : ∃ qs w, SegmText u s qs w ∧ u.viterbi (encStr s) = .ok (u.output (inBytes qs)) := by
    cases h : u.unkId with
    | some uid =>
      obtain ⟨qs, w, h1, _, h2⟩ := C37_text u hu h s
      exact ⟨qs, w, h1, h2⟩
    | none =>
      rcases C37_text_known u hu h hf s with ⟨qs, w, h1, _, h2⟩ | ⟨h1, _⟩
      · refine ⟨qs, w, h1, ?_⟩
        rw [h2]
        simp only [output, h]
        cases u.fuseUnk <;> simp [inBytes]
      · exact absurd (segmText_known s hc) h1
  obtain ⟨qs, w, h1, h2⟩ := key
  obtain ⟨h3, h4⟩ := segmText_pieces h1 hc
  refine ⟨qs.map (·.1), ?_, h3, ?_⟩
  · rw [h2]
    have e : (qs.map (·.1)).map encStr = (inBytes qs).map (·.1) := by simp [inBytes]
    rw [e]
    unfold output
    split
    · next uid _ hid =>
      rw [fuseRuns_none]
      intro p hp he
      obtain ⟨q, hq, rfl⟩ := List.mem_map.mp hp
      obtain ⟨_, k2, id, k3, k4⟩ := h4 q hq
      dsimp only at he
      refine hunk uid q.1 hid ?_ k2
      rw [← he, k4]
      exact (C68_token_id_token u _ id k3).1
    · rfl
  · intro t ht
    obtain ⟨q, hq, rfl⟩ := List.mem_map.mp ht
    obtain ⟨k1, _, id, k3, _⟩ := h4 q hq
    exact ⟨k1, id, k3⟩

theorem toTokens_known (u : Unigram K) (ts : List Str) (h : ∀ t ∈ ts, t ≠ [] ∧ ∃ id : Nat, u.tokenToId (encStr t) = some id) :
    ∀ k, (u.tokensToTokenizer k (ts.map encStr)).map (fun x => decStr x.2.1) = ts ∧
      ∀ x ∈ u.tokensToTokenizer k (ts.map encStr), ∃ id : Nat, u.tokenToId (encStr (decStr x.2.1)) = some id ∧ x.1 = id ∧
        x.2.2.1 ≤ x.2.2.2 := by
  induction ts with
  | nil => intro k; simp [tokensToTokenizer]
  | cons t ts ih =>
    intro k
    obtain ⟨_, id, hid⟩ := h t (by simp)
    obtain ⟨h1, h2⟩ := ih (fun x hx => h x (by simp [hx])) (k + (encStr t).length)
    simp only [List.map_cons, tokensToTokenizer, hid]
    refine ⟨by rw [h1, decStr_enc], ?_⟩
    intro x hx
    rcases List.mem_cons.mp hx with rfl | hx
    · exact ⟨id, by rw [decStr_enc]; exact hid, rfl, by dsimp only; omega⟩
    · exact h2 x hx

theorem unigramModel_known (u : Unigram K) (hu : TextVocab u) (hf : u.bytesFallback = false) (s : Str)
    (hc : ∀ c ∈ s, u.tokenToId (encStr [c]) ≠ none)
    (hunk : ∀ (uid : Int) (t : Str), u.unkId = some uid → u.idToToken uid = some (encStr t) → ¬ t <:+: s) :
    ∃ ts : List Token, unigramModel u (encStr s) = .ok (some ts) ∧ (ts.map (·.value)).flatten = s ∧
      ∀ x ∈ ts, x.value ≠ [] ∧ 0 ≤ x.offsets.1 ∧ x.offsets.1 ≤ x.offsets.2 ∧
        ∃ id : Nat, u.tokenToId (encStr x.value) = some id ∧ x.id = id := by
  obtain ⟨ts, h1, h2, h3⟩ := viterbi_known u hu hf s hc hunk
  obtain ⟨k1, k2⟩ := toTokens_known u ts h3 0
  refine ⟨_, by
    unfold unigramModel tokenize
    rw [hf]
    simp only [Bool.false_eq_true, if_false, h1, Res.bind_ok]
    rfl, ?_, ?_⟩
  · rw [List.map_map, ← h2]
    exact congrArg List.flatten k1
  · intro x hx
    obtain ⟨y, hy, rfl⟩ := List.mem_map.mp hx
    obtain ⟨id, j1, j2, j3⟩ := k2 y hy
    dsimp only
    refine ⟨?_, by omega, by omega, id, j1, j2⟩
    have hm : decStr y.2.1 ∈ ts := by rw [← k1]; exact List.mem_map_of_mem (f := fun x => decStr x.2.1) hy
    exact (h3 _ hm).1

end Tok.Unigram
