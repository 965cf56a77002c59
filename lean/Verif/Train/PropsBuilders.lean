import Verif.Train.Builders
import Verif.Train.PropsPrefix
import Verif.Word.PropsBuilders

/-! # C115: a trainer has the settings that its builder was given last -/

namespace Tok.Train

/-! ### Specification -/

def TCall.minFrequency? : TCall → Option Int | .minFrequency n => some n | _ => none
def TCall.vocabSize? : TCall → Option Int | .vocabSize n => some n | _ => none
def TCall.specialTokens? : TCall → Option (List Str) | .specialTokens l => some l | _ => none
def TCall.limit? : TCall → Option Nat | .limitAlphabet n => some n | _ => none
def TCall.alphabet? : TCall → Option (List Str) | .initialAlphabet l => some l | _ => none
def TCall.pre? : TCall → Option Str | .continuingSubwordPrefix s => some s | _ => none
def TCall.suf? : TCall → Option Str | .endOfWordSuffix s => some s | _ => none

/-- A trainer with of every setting the value given last, and a default if none was given: any frequency,
30000 tokens, no special tokens, no limit for the alphabet, no initial alphabet, the prefix `pre` and no
suffix. -/
structure Settled (pre : Option Str) (ks : List TCall) (t : Cfg) : Prop where
  minFrequency : t.minFrequency = (lastOf TCall.minFrequency? ks).getD 0
  vocabSize : t.vocabSize = (lastOf TCall.vocabSize? ks).getD 30000
  specialTokens : t.specialTokens = (lastOf TCall.specialTokens? ks).getD []
  limitAlphabet : t.limitAlphabet = lastOf TCall.limit? ks
  initialAlphabet : t.initialAlphabet = (lastOf TCall.alphabet? ks).getD []
  prefixed : t.pre = (lastOf TCall.pre? ks).or pre
  suffixed : t.suf = lastOf TCall.suf? ks

/-! ### Lemmas -/

theorem tCalls_settled {pre : Option Str} {c : Cfg} (hc : Settled pre [] c) (ks : List TCall) :
    Settled pre ks (ks.foldl tCall c) := by
  induction ks using snoc_ind with
  | h0 => exact hc
  | h1 ks k ih =>
  rw [List.foldl_append]
  obtain ⟨h1, h2, h3, h4, h5, h6, h7⟩ := ih
  constructor <;> simp only [lastOf_snoc] <;> cases k <;>
    simp_all [tCall, TCall.minFrequency?, TCall.vocabSize?, TCall.specialTokens?, TCall.limit?, TCall.alphabet?,
      TCall.pre?, TCall.suf?]

theorem wpTrainerCalls_eq (ks : List TCall) : ∀ (st : Store) (b : Nat),
    wpTrainerCalls st b ks = (st.modify b (fun c => ks.foldl tCall c), b) := by
  induction ks with
  | nil =>
    intro st b
    simp only [wpTrainerCalls, List.foldl_nil]
    congr 1
    apply List.ext_getElem? 
    intro i
    rw [List.getElem?_modify]
    split <;> simp
  | cons k ks ih =>
    intro st b
    simp only [wpTrainerCalls, wpTrainerCall, ih, List.foldl_cons]
    congr 1
    apply List.ext_getElem?
    intro i
    simp only [List.getElem?_modify]
    cases st[i]? with
    | none => simp
    | some c => by_cases h : b = i <;> simp [h]

theorem bpeDefault : Settled none [] newTrainerBuilder := ⟨rfl, rfl, rfl, rfl, rfl, rfl, rfl⟩

theorem wpDefault : Settled (some "##".toList) [] (tCall newTrainerBuilder (.continuingSubwordPrefix "##".toList)) :=
  ⟨rfl, rfl, rfl, rfl, rfl, rfl, rfl⟩

/-! ### C115 -/

/-- **C115.** A BPE trainer has of every setting the value that its builder was given last, and otherwise
the default. -/
theorem C115_bpe (ks : List TCall) : Settled none ks (trainerBuild (ks.foldl tCall newTrainerBuilder)) :=
  tCalls_settled (c := newTrainerBuilder) bpeDefault ks

/-- **C115.** `NewBpeTrainer` gives the trainer with that frequency and size and otherwise the defaults. -/
theorem C115_new (minFreq vocabSize : Int) :
    Settled none [.minFrequency minFreq, .vocabSize vocabSize] (newBpeTrainer minFreq vocabSize) :=
  ⟨rfl, rfl, rfl, rfl, rfl, rfl, rfl⟩

/-- **C115.** A WordPiece trainer built with a chain of calls has of every setting the value given last, and
otherwise the default, which for the prefix is `##`. -/
theorem C115_wordPiece (st : Store) (ks : List TCall) :
    ∃ t, (let b := newWpTrainerBuilder st
          let r := wpTrainerCalls b.1 b.2 ks
          wpTrainerBuild r.1 r.2) = .ok t ∧ Settled (some "##".toList) ks t := by
  refine ⟨trainerBuild (ks.foldl tCall (tCall newTrainerBuilder (.continuingSubwordPrefix "##".toList))), ?_, ?_⟩
  · simp [newWpTrainerBuilder, wpTrainerCalls_eq, wpTrainerBuild]
  · exact tCalls_settled (c := tCall newTrainerBuilder (.continuingSubwordPrefix "##".toList)) wpDefault ks

/-- **C115.** The settings of one WordPiece builder have no effect on what another builder, made with
`NewWordPieceTrainerBuilder` as well, builds. -/
theorem C115_apart (st : Store) (b b' : Nat) (h : b ≠ b') (ks : List TCall) :
    wpTrainerBuild (wpTrainerCalls st b ks).1 b' = wpTrainerBuild st b' := by
  simp [wpTrainerCalls_eq, wpTrainerBuild, h]

/-- **C115, violated.** The methods of a WordPiece builder do not have it by reference and return a builder,
but the old one has the new settings too. If two builders are derived from one, with calls `ks` and with
calls `ls`, then the two and the one they come from all build the same trainer, with all those settings. -/
theorem C115_shared_violated (st : Store) (ks ls : List TCall) :
    ∃ t, (let b := newWpTrainerBuilder st
          let one := wpTrainerCalls b.1 b.2 ks
          let two := wpTrainerCalls one.1 b.2 ls
          wpTrainerBuild two.1 one.2 = .ok t ∧ wpTrainerBuild two.1 two.2 = .ok t ∧
            wpTrainerBuild two.1 b.2 = .ok t) ∧ Settled (some "##".toList) (ks ++ ls) t := by
  refine ⟨trainerBuild ((ks ++ ls).foldl tCall (tCall newTrainerBuilder (.continuingSubwordPrefix "##".toList))),
    ?_, ?_⟩
  · simp [newWpTrainerBuilder, wpTrainerCalls_eq, wpTrainerBuild]
  · exact tCalls_settled (c := tCall newTrainerBuilder (.continuingSubwordPrefix "##".toList)) wpDefault (ks ++ ls)

/-- **C115, violated.** A trainer does not give its settings back as a builder: `Builder` of any trainer is a
builder with the defaults. -/
theorem C115_builder_violated (st : Store) (t : Cfg) :
    ∃ t', (let b := wpTrainerBuilder t st; wpTrainerBuild b.1 b.2) = .ok t' ∧ Settled (some "##".toList) [] t' :=
  C115_wordPiece st []

/-- **C115, violated.** A WordPiece builder that was declared and not made with `NewWordPieceTrainerBuilder`
cannot build. -/
theorem C115_undeclared_violated (st : Store) {b : Nat} (hb : st.length ≤ b) (ks : List TCall) :
    wpTrainerBuild (wpTrainerCalls st b ks).1 b = .panic := by
  have : (st.modify b fun c => List.foldl tCall c ks)[b]? = none := by simp [hb]
  simp only [wpTrainerCalls_eq, wpTrainerBuild, this]

/-! ### Cases -/

/-- A size given twice. -/
example : (trainerBuild ([TCall.vocabSize 50, .minFrequency 2, .vocabSize 80].foldl tCall newTrainerBuilder)).vocabSize = 80 := by
  decide

/-- Two builders from one: a size for the first, a frequency for the second. -/
example : ∃ t, (let b := newWpTrainerBuilder []
    let one := wpTrainerCalls b.1 b.2 [.vocabSize 50]
    let two := wpTrainerCalls one.1 b.2 [.minFrequency 2]
    wpTrainerBuild two.1 one.2) = .ok t ∧ t.minFrequency = 2 ∧ t.vocabSize = 50 := ⟨_, rfl, rfl, rfl⟩

/-- The trainer of C82 is one of these. -/
example (minFreq vocabSize : Int) (specials : List Str) : Settled (some "##".toList)
    [.minFrequency minFreq, .vocabSize vocabSize, .specialTokens specials] (wordPieceTrainer minFreq vocabSize specials) :=
  ⟨rfl, rfl, rfl, rfl, rfl, rfl, rfl⟩

end Tok.Train
