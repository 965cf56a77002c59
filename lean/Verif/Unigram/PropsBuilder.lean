import Verif.Unigram.Build
import Verif.Word.PropsBuilders
import Mathlib.Algebra.Order.Group.Int

/-! # C114 for Unigram: a model has the settings that its builder was given last -/

namespace Tok.Unigram

variable {K : Type} [AddCommGroup K] [LinearOrder K]

/-! ### Specification -/

def UgCall.vocab? : UgCall K → Option (List (Bytes × K)) | .vocab v => some v | _ => none
def UgCall.unk? : UgCall K → Option Int | .unkId i => some i | _ => none
def UgCall.fallback? : UgCall K → Option Bool | .bytesFallback b => some b | _ => none
def UgCall.fuse? : UgCall K → Option Bool | .fuseUnk b => some b | _ => none

/-! ### Lemma -/

omit [AddCommGroup K] [LinearOrder K] in
theorem ugCalls_eq (ks : List (UgCall K)) : ks.foldl ugCall newUnigramBuilder =
    ⟨(lastOf UgCall.vocab? ks).getD [], lastOf UgCall.unk? ks, (lastOf UgCall.fallback? ks).getD false,
      (lastOf UgCall.fuse? ks).getD true⟩ := by
  induction ks using snoc_ind with
  | h0 => rfl
  | h1 ks k ih =>
  rw [List.foldl_append, ih]
  simp only [lastOf_snoc]
  cases k <;> simp [ugCall, UgCall.vocab?, UgCall.unk?, UgCall.fallback?, UgCall.fuse?]

/-! ### C114 -/

omit [AddCommGroup K] [LinearOrder K] in
/-- **C114.** A Unigram model has of every setting the value given last, and a default if none was given: no
tokens, no unknown token, no byte fallback, unknown tokens fused. -/
theorem C114_unigram_settings (ks : List (UgCall K)) {bonus penalty : K} {u : Unigram K}
    (h : ugBuild (ks.foldl ugCall newUnigramBuilder) bonus penalty = .ok u) :
    u.vocab = (lastOf UgCall.vocab? ks).getD [] ∧ u.unkId = lastOf UgCall.unk? ks ∧
      u.bytesFallback = (lastOf UgCall.fallback? ks).getD false ∧ u.fuseUnk = (lastOf UgCall.fuse? ks).getD true := by
  rw [ugCalls_eq] at h
  simp only [ugBuild, build] at h
  split at h
  · split at h
    · cases h
    · cases h; exact ⟨rfl, by simp_all, rfl, rfl⟩
  · cases h; exact ⟨rfl, by simp_all, rfl, rfl⟩

omit [AddCommGroup K] [LinearOrder K] in
/-- **C114.** `Build` fails exactly if the last unknown id is not below the number of tokens given last. -/
theorem C114_unigram_fails (ks : List (UgCall K)) (bonus penalty : K) :
    (∃ u, ugBuild (ks.foldl ugCall newUnigramBuilder) bonus penalty = .ok u) ↔
      ∀ i, lastOf UgCall.unk? ks = some i → i < (((lastOf UgCall.vocab? ks).getD []).length : Int) := by
  rw [ugCalls_eq]
  simp only [ugBuild, build]
  cases h : lastOf UgCall.unk? ks with
  | none => simp
  | some i =>
    simp only [Option.some.injEq, forall_eq']
    split
    · next hge => simp; omega
    · next hge => simp; omega

/-! ### Cases -/

/-- The vocabulary given last, and an unknown id. -/
example : ∃ u, ugBuild ([UgCall.vocab [([97], 1)], .unkId 1, .vocab [([98], 2), ([99], 3)]].foldl ugCall newUnigramBuilder)
    (1 : Int) 10 = .ok u ∧ u.vocab = [([98], 2), ([99], 3)] ∧ u.unkId = some 1 ∧ u.fuseUnk = true := ⟨_, rfl, rfl, rfl, rfl⟩

end Tok.Unigram
