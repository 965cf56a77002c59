import Verif.Word.Model

/-! # C34, C35, C36, C57: WordPiece and WordLevel -/

namespace Tok

/-! ### Specification -/

/-- The vocabulary entry for a piece at the start of the word or inside it. -/
def WordPiece.entry (m : WordPiece) (first : Bool) (piece : Str) : Str :=
  if first then piece else m.pre ++ piece

/-- `ps` is the greedy segmentation of the rest of a word: each piece is the longest prefix
of what remains that has an entry. -/
inductive Greedy (m : WordPiece) : Bool → Str → List (Str × Int) → Prop
  | nil (first : Bool) : Greedy m first [] []
  | cons (first : Bool) (p rest : Str) (id : Int) (ps : List (Str × Int)) (hp : p ≠ [])
      (hid : m.vocab (m.entry first p) = some id)
      (hlong : ∀ p' rest', p' ++ rest' = p ++ rest → p.length < p'.length →
        m.vocab (m.entry first p') = none)
      (ht : Greedy m false rest ps) : Greedy m first (p ++ rest) ((p, id) :: ps)

/-- The tokens of a segmentation, from character position `start`. -/
def piecesToTokens (m : WordPiece) : Bool → Nat → List (Str × Int) → List Token
  | _, _, [] => []
  | first, start, (p, id) :: ps =>
    ⟨id, m.entry first p, ((start : Int), ((start + p.length : Nat) : Int))⟩ ::
      piecesToTokens m false (start + p.length) ps

/-- The token offsets run from `a` to `b` without gap, each covering at least one position. -/
def TokensTile : Int → Int → List Token → Prop
  | a, b, [] => a = b
  | a, b, t :: ts => t.offsets.1 = a ∧ t.offsets.1 < t.offsets.2 ∧ TokensTile t.offsets.2 b ts

/-! ### The loops -/

namespace WordPiece

theorem sub_eq (done rest : Str) (k : Nat) :
    sub (done ++ rest) done.length (done.length + k) = rest.take k := by
  unfold sub
  rw [List.take_append, List.take_of_length_le (by omega)]
  simp

theorem key_eq (m : WordPiece) (done piece : Str) (first : Bool) (h : first = done.isEmpty) :
    m.key done.length piece = m.entry first piece := by
  subst h
  unfold key entry
  cases done <;> simp

theorem inner_spec (m : WordPiece) (done rest : Str) (first : Bool) (h : first = done.isEmpty) :
    ∀ k, k ≤ rest.length →
    match inner m (done ++ rest) done.length (done.length + k) with
    | some t => ∃ p r id, rest = p ++ r ∧ p ≠ [] ∧ p.length ≤ k ∧ m.vocab (m.entry first p) = some id ∧
        (∀ p' r', p' ++ r' = rest → p.length < p'.length → p'.length ≤ k →
          m.vocab (m.entry first p') = none) ∧
        t = ⟨id, m.entry first p, ((done.length : Int), ((done.length + p.length : Nat) : Int))⟩
    | none => ∀ p r, p ++ r = rest → p ≠ [] → p.length ≤ k → m.vocab (m.entry first p) = none := by
  intro k
  induction k with
  | zero =>
    intro _
    have : inner m (done ++ rest) done.length (done.length + 0) = none := by
      cases hd : done.length with
      | zero => rfl
      | succ n => simp [inner]
    rw [this]
    intro p r _ hp hl
    exact absurd (List.eq_nil_of_length_eq_zero (by omega)) hp
  | succ k ih =>
    intro hk
    have ih := ih (by omega)
    rw [show done.length + (k + 1) = (done.length + k) + 1 by omega]
    unfold inner
    rw [if_pos (by omega), show done.length + k + 1 = done.length + (k + 1) by omega, sub_eq,
      key_eq m done _ first h]
    have huniq : ∀ p' r', p' ++ r' = rest → p'.length = k + 1 → p' = rest.take (k + 1) := by
      intro p' r' h1 h2
      rw [← h1, ← h2]; simp
    cases hv : m.vocab (m.entry first (rest.take (k + 1))) with
    | some id =>
      refine ⟨rest.take (k + 1), rest.drop (k + 1), id, by simp, ?_, ?_, hv, ?_, ?_⟩
      · intro hn
        have := congrArg List.length hn
        rw [List.length_take, List.length_nil] at this
        omega
      · simp; omega
      · intro p' r' h1 h2 h3
        simp only [List.length_take] at h2
        omega
      · have : (rest.take (k + 1)).length = k + 1 := by simp; omega
        rw [this]
    | none =>
      simp only
      cases hin : inner m (done ++ rest) done.length (done.length + k) with
      | some t =>
        rw [hin] at ih
        obtain ⟨p, r, id, h1, h2, h3, h4, h5, h6⟩ := ih
        refine ⟨p, r, id, h1, h2, by omega, h4, ?_, h6⟩
        intro p' r' e1 e2 e3
        rcases Nat.lt_or_ge p'.length (k + 1) with hl | hl
        · exact h5 p' r' e1 e2 (by omega)
        · rw [huniq p' r' e1 (by omega)]; exact hv
      | none =>
        rw [hin] at ih
        intro p r e1 e2 e3
        rcases Nat.lt_or_ge p.length (k + 1) with hl | hl
        · exact ih p r e1 e2 (by omega)
        · rw [huniq p r e1 (by omega)]; exact hv

theorem outer_spec (m : WordPiece) : ∀ (fuel : Nat) (done rest : Str) (first : Bool) (acc : List Token),
    first = done.isEmpty → rest.length < fuel →
    match outer m (done ++ rest) fuel done.length acc with
    | some ts => ∃ ps, Greedy m first rest ps ∧ ts = acc ++ piecesToTokens m first done.length ps
    | none => ∀ ps, ¬ Greedy m first rest ps := by
  intro fuel
  induction fuel with
  | zero => intro _ _ _ _ _ h; omega
  | succ fuel ih =>
    intro done rest first acc hf hfuel
    unfold outer
    cases rest with
    | nil =>
      rw [if_neg (by simp)]
      exact ⟨[], .nil first, by simp [piecesToTokens]⟩
    | cons c rest' =>
      rw [if_pos (by simp)]
      have hin := inner_spec m done (c :: rest') first hf (c :: rest').length (Nat.le_refl _)
      rw [← List.length_append] at hin
      cases hi : inner m (done ++ c :: rest') done.length (done ++ c :: rest').length with
      | none =>
        rw [hi] at hin
        intro ps hg
        generalize hr : c :: rest' = R at hg
        cases hg with
        | nil => cases hr
        | cons _ p r id ps hp hid hlong ht =>
          rw [hr] at hin
          have := hin p r rfl hp (by simp)
          rw [this] at hid
          cases hid
      | some t =>
        rw [hi] at hin
        obtain ⟨p, r, id, h1, h2, h3, h4, h5, h6⟩ := hin
        have hlong : ∀ p' rest', p' ++ rest' = p ++ r → p.length < p'.length →
            m.vocab (m.entry first p') = none := by
          intro p' r' e1 e2
          refine h5 p' r' (by rw [e1, h1]) e2 ?_
          have := congrArg List.length e1
          have h1' := congrArg List.length h1
          simp only [List.length_append] at this h1'
          omega
        have hlen := congrArg List.length h1
        simp only [List.length_append] at hlen
        have hp0 : 0 < p.length := by
          cases p with
          | nil => exact absurd rfl h2
          | cons _ _ => simp
        have hs : t.offsets.2.toNat = (done ++ p).length := by rw [h6]; simp; omega
        simp only
        rw [hs, h1, ← List.append_assoc]
        have hfd : false = (done ++ p).isEmpty := by
          cases p with
          | nil => exact absurd rfl h2
          | cons _ _ => simp
        have := ih (done ++ p) r false (acc ++ [t]) hfd (by omega)
        cases ho : outer m (done ++ p ++ r) fuel (done ++ p).length (acc ++ [t]) with
        | some ts =>
          rw [ho] at this
          obtain ⟨ps, g1, g2⟩ := this
          refine ⟨(p, id) :: ps, .cons first p r id ps h2 h4 hlong g1, ?_⟩
          rw [g2, h6]
          simp [piecesToTokens]
        | none =>
          rw [ho] at this
          have hno := this
          intro ps hg
          generalize hr : p ++ r = R at hg
          cases hg with
          | nil => simp at hr; exact h2 hr.1
          | cons _ p' r' id' ps' hp' hid' hlong' ht' =>
            have hlen : p.length = p'.length := by
              rcases Nat.lt_trichotomy p.length p'.length with hl | hl | hl
              · have := hlong p' r' hr.symm hl
                rw [this] at hid'; cases hid'
              · exact hl
              · have := hlong' p r hr hl
                rw [this] at h4; cases h4
            have := List.append_inj hr hlen
            rw [← this.2] at ht'
            exact hno ps' ht'

end WordPiece

theorem greedy_unique {m : WordPiece} {first : Bool} {w : Str} {ps qs : List (Str × Int)}
    (h : Greedy m first w ps) (h' : Greedy m first w qs) : ps = qs := by
  induction h generalizing qs with
  | nil first =>
    generalize hr : ([] : Str) = R at h'
    cases h' with
    | nil => rfl
    | cons _ p r id ps hp => simp at hr; exact absurd hr.1 hp
  | cons first p r id ps hp hid hlong ht ih =>
    generalize hr : p ++ r = R at h'
    cases h' with
    | nil => simp at hr; exact absurd hr.1 hp
    | cons _ p' r' id' ps' hp' hid' hlong' ht' =>
      have hlen : p.length = p'.length := by
        rcases Nat.lt_trichotomy p.length p'.length with hl | hl | hl
        · have := hlong p' r' hr.symm hl
          rw [this] at hid'; cases hid'
        · exact hl
        · have := hlong' p r hr hl
          rw [this] at hid; cases hid
      obtain ⟨e1, e2⟩ := List.append_inj hr hlen
      subst e1; subst e2
      rw [hid] at hid'
      cases hid'
      rw [ih ht']

/-! ### C34 -/

/-- **C34.** A word within the length limit that has a greedy segmentation gets the tokens of
that segmentation. -/
theorem C34_greedy (m : WordPiece) (w : Str) (hl : (w.length : Int) ≤ m.maxChars)
    (ps : List (Str × Int)) (h : Greedy m true w ps) :
    m.tokenize w = .ok (piecesToTokens m true 0 ps) := by
  unfold WordPiece.tokenize
  rw [if_neg (by omega)]
  have := WordPiece.outer_spec m (w.length + 1) [] w true [] rfl (by omega)
  simp only [List.nil_append, List.length_nil] at this
  cases ho : WordPiece.outer m w (w.length + 1) 0 [] with
  | none => rw [ho] at this; exact absurd h (this ps)
  | some ts =>
    rw [ho] at this
    obtain ⟨qs, h1, h2⟩ := this
    rw [greedy_unique h h1, h2]

/-- **C34.** Otherwise, or when the word is too long, the result is the single unknown token
over the whole word, or an error when the vocabulary has none. -/
theorem C34_unknown (m : WordPiece) (w : Str)
    (h : m.maxChars < w.length ∨ ∀ ps, ¬ Greedy m true w ps) :
    m.tokenize w = match m.vocab m.unk with
      | some id => .ok [⟨id, m.unk, (0, (w.length : Int))⟩]
      | none => .err := by
  have hu : m.unkToken w.length = match m.vocab m.unk with
      | some id => .ok [⟨id, m.unk, (0, (w.length : Int))⟩]
      | none => .err := by
    unfold WordPiece.unkToken
    cases m.vocab m.unk <;> rfl
  unfold WordPiece.tokenize
  by_cases hl : (w.length : Int) > m.maxChars
  · rw [if_pos hl, hu]
  · rw [if_neg hl]
    rcases h with h | h
    · omega
    · have := WordPiece.outer_spec m (w.length + 1) [] w true [] rfl (by omega)
      simp only [List.nil_append, List.length_nil] at this
      cases ho : WordPiece.outer m w (w.length + 1) 0 [] with
      | none => exact hu
      | some ts =>
        rw [ho] at this
        obtain ⟨qs, h1, h2⟩ := this
        exact absurd h1 (h qs)

/-- **C34.** There is at most one greedy segmentation. -/
theorem C34_unique (m : WordPiece) (w : Str) (ps qs : List (Str × Int)) (h : Greedy m true w ps)
    (h' : Greedy m true w qs) : ps = qs := greedy_unique h h'

/-- A vocabulary for the examples. -/
def sampleWP : WordPiece :=
  { vocab := fun s => if s = "un".toList then some 1 else if s = "##aff".toList then some 2 else
      if s = "##affable".toList then some 3 else if s = "[UNK]".toList then some 0 else none
    unk := "[UNK]".toList, pre := "##".toList, maxChars := 100 }

example : sampleWP.tokenize "unaffable".toList =
    .ok [⟨1, "un".toList, (0, 2)⟩, ⟨3, "##affable".toList, (2, 9)⟩] := by decide

example : sampleWP.tokenize "unaffx".toList = .ok [⟨0, "[UNK]".toList, (0, 6)⟩] := by decide

/-! ### C35 -/

theorem greedy_flatten {m : WordPiece} {first : Bool} {w : Str} {ps : List (Str × Int)}
    (h : Greedy m first w ps) : (ps.map (·.1)).flatten = w ∧ ∀ p ∈ ps, p.1 ≠ [] := by
  induction h with
  | nil => simp
  | cons first p r id ps hp hid hlong ht ih =>
    refine ⟨by simp [ih.1], ?_⟩
    intro q hq
    rcases List.mem_cons.1 hq with rfl | hq
    · exact hp
    · exact ih.2 q hq

theorem piecesToTokens_values (m : WordPiece) : ∀ (ps : List (Str × Int)) (start : Nat),
    (piecesToTokens m false start ps).map (·.value) = ps.map (fun p => m.pre ++ p.1) := by
  intro ps
  induction ps with
  | nil => intro _; rfl
  | cons p ps ih => intro s; simp [piecesToTokens, ih, WordPiece.entry]

theorem piecesToTokens_tile (m : WordPiece) : ∀ (ps : List (Str × Int)) (first : Bool) (start : Nat),
    (∀ p ∈ ps, p.1 ≠ []) →
    TokensTile (start : Int) ((start + (ps.map (·.1)).flatten.length : Nat) : Int)
      (piecesToTokens m first start ps) := by
  intro ps
  induction ps with
  | nil => intro _ _ _; simp [TokensTile, piecesToTokens]
  | cons p ps ih =>
    intro first start h
    have hp := h p (by simp)
    have hp0 : 0 < p.1.length := List.length_pos_iff.2 hp
    refine ⟨rfl, ?_, ?_⟩
    · show (start : Int) < ((start + p.1.length : Nat) : Int)
      omega
    · have := ih false (start + p.1.length) (fun q hq => h q (by simp [hq]))
      rw [List.map_cons, List.flatten_cons, List.length_append, ← Nat.add_assoc]
      exact this

/-- The texts of a word's tokens: the first piece as it is, the others with the prefix. -/
def wordValues (pre : Str) : List Str → List Str
  | [] => []
  | p :: ps => p :: ps.map (pre ++ ·)

/-- **C35.** When the word has a greedy segmentation, the token values are its pieces, with the
prefix on all but the first; the pieces concatenate to the word; and the offsets run
without gap over its characters. -/
theorem C35_reconstruct (m : WordPiece) (w : Str) (hl : (w.length : Int) ≤ m.maxChars)
    (ps : List (Str × Int)) (h : Greedy m true w ps) :
    ∃ ts, m.tokenize w = .ok ts ∧ ts.map (·.value) = wordValues m.pre (ps.map (·.1)) ∧
      (ps.map (·.1)).flatten = w ∧ TokensTile 0 (w.length : Int) ts := by
  obtain ⟨hf, hne⟩ := greedy_flatten h
  refine ⟨_, C34_greedy m w hl ps h, ?_, hf, ?_⟩
  · cases ps with
    | nil => rfl
    | cons p ps => simp [piecesToTokens, wordValues, WordPiece.entry, piecesToTokens_values]
  · have := piecesToTokens_tile m ps true 0 hne
    rw [hf] at this
    simpa using this

theorem wpDecode_append (pre : Str) (f : Option (Str → Str)) : ∀ (a b : List Str) (i : Nat),
    wpDecode pre f i (a ++ b) = wpDecode pre f i a ++ wpDecode pre f (i + a.length) b := by
  intro a
  induction a with
  | nil => intro b i; simp [wpDecode]
  | cons t a ih =>
    intro b i
    simp only [List.cons_append, wpDecode, List.length_cons]
    rw [ih, show i + 1 + a.length = i + (a.length + 1) by omega]

theorem wpDecode_cont (pre : Str) : ∀ (ps : List Str) (i : Nat), 0 < i →
    (wpDecode pre none i (ps.map (pre ++ ·))).flatten = ps.flatten := by
  intro ps
  induction ps with
  | nil => intro _ _; rfl
  | cons p ps ih =>
    intro i hi
    have : (pre.isPrefixOf (pre ++ p)) = true := by simp
    simp only [List.map_cons, wpDecode, this, if_true]
    rw [if_pos (by omega)]
    simp only [List.drop_left, List.flatten_cons]
    rw [ih (i + 1) (by omega)]

/-- Words joined by single spaces. -/
def joinSpace : List Str → Str
  | [] => []
  | [w] => w
  | w :: ws => w ++ ' ' :: joinSpace ws

theorem joinSpace_cons (w : Str) (ws : List Str) :
    joinSpace (w :: ws) = w ++ (ws.map (' ' :: ·)).flatten := by
  induction ws generalizing w with
  | nil => simp [joinSpace]
  | cons v vs ih =>
    rw [joinSpace, ih v]
    · simp
    · simp

theorem wpDecode_words (pre : Str) : ∀ (segs : List (List Str)) (i : Nat), 0 < i →
    (∀ s ∈ segs, ∃ p ps, s = p :: ps ∧ pre.isPrefixOf p = false) →
    (wpDecode pre none i (segs.map (wordValues pre)).flatten).flatten =
      (segs.map (fun s => ' ' :: s.flatten)).flatten := by
  intro segs
  induction segs with
  | nil => intro _ _ _; rfl
  | cons s segs ih =>
    intro i hi h
    obtain ⟨p, ps, rfl, hp⟩ := h s (by simp)
    rw [List.map_cons, List.flatten_cons, wpDecode_append, List.flatten_append]
    rw [ih _ (by omega) (fun s hs => h s (by simp [hs]))]
    simp only [wordValues, wpDecode, hp, List.map_cons, List.flatten_cons, List.flatten_cons]
    rw [if_pos (by omega)]
    have := wpDecode_cont pre ps (i + 1) (by omega)
    simp [this]

/-- The pieces of every word, taken from the tokens. -/
theorem words_pieces (m : WordPiece) : ∀ (words : List Str) (tss : List (List Token)),
    (∀ w ∈ words, w ≠ []) → (∀ w ∈ words, (w.length : Int) ≤ m.maxChars) →
    words.map m.tokenize = tss.map .ok →
    (∀ w ∈ words, ∃ ps, Greedy m true w ps ∧ ∀ q ∈ ps.head?, m.pre.isPrefixOf q.1 = false) →
    ∃ segs : List (List Str), tss.flatten.map (·.value) = (segs.map (wordValues m.pre)).flatten ∧
      words = segs.map List.flatten ∧
      ∀ s ∈ segs, (∃ p ps, s = p :: ps ∧ m.pre.isPrefixOf p = false) ∧ ∀ q ∈ s, q ≠ [] := by
  intro words
  induction words with
  | nil =>
    intro tss _ _ ht _
    have : tss = [] := by simpa using ht.symm
    subst this
    exact ⟨[], rfl, rfl, by simp⟩
  | cons w words ih =>
    intro tss hne hl ht hg
    cases tss with
    | nil => cases ht
    | cons ts tss =>
      simp only [List.map_cons, List.cons.injEq] at ht
      obtain ⟨segs, h1, h2, h3⟩ := ih tss (fun v hv => hne v (by simp [hv]))
        (fun v hv => hl v (by simp [hv])) ht.2 (fun v hv => hg v (by simp [hv]))
      obtain ⟨ps, hps, hq⟩ := hg w (by simp)
      obtain ⟨ts', e1, e2, e3, _⟩ := C35_reconstruct m w (hl w (by simp)) ps hps
      rw [e1] at ht
      have e4 := Res.ok.inj ht.1
      subst e4
      refine ⟨ps.map (·.1) :: segs, ?_, by simp [e3, ← h2], ?_⟩
      · simp only [List.flatten_cons, List.map_append, List.map_cons, h1, e2]
      · intro s hs
        rcases List.mem_cons.1 hs with rfl | hs
        · cases ps with
          | nil => simp at e3; exact absurd e3 (hne w (by simp))
          | cons p ps =>
            refine ⟨⟨p.1, ps.map (·.1), rfl, hq p rfl⟩, ?_⟩
            intro q hq
            obtain ⟨y, hy, rfl⟩ := List.mem_map.mp hq
            exact (greedy_flatten hps).2 y hy
        · exact h3 s hs

/-- **C35.** Decoding the tokens of a list of words, each segmented greedily, without clean-up,
gives the words joined by spaces, provided no piece at the start of a later word begins with
the prefix itself. -/
theorem C35_decode (m : WordPiece) (words : List Str) (hne : ∀ w ∈ words, w ≠ [])
    (hl : ∀ w ∈ words, (w.length : Int) ≤ m.maxChars) (tss : List (List Token))
    (ht : words.map m.tokenize = tss.map .ok)
    (hg : ∀ w ∈ words, ∃ ps, Greedy m true w ps ∧ ∀ q ∈ ps.head?, m.pre.isPrefixOf q.1 = false) :
    joinDecode (wpDecodeChain m.pre none) (tss.flatten.map (·.value)) = joinSpace words := by
  obtain ⟨segs, h1, h2, h3⟩ := words_pieces m words tss hne hl ht hg
  unfold joinDecode wpDecodeChain
  rw [h1]
  cases segs with
  | nil => subst h2; rfl
  | cons s segs =>
    obtain ⟨p, ps, rfl, hp⟩ := (h3 s (by simp)).1
    rw [h2, List.map_cons, List.flatten_cons, wpDecode_append, List.flatten_append]
    simp only [wordValues, wpDecode, List.length_cons]
    rw [wpDecode_words m.pre segs _ (by omega) (fun s hs => (h3 s (by simp [hs])).1)]
    simp only [List.map_cons, ne_eq, not_true_eq_false, if_false, List.flatten_cons]
    rw [wpDecode_cont m.pre ps (0 + 1) (by omega), joinSpace_cons, List.map_map]
    rfl

/-- **C35, violated.** A word that itself begins with the prefix and is in the vocabulary loses
the prefix and the space before it. -/
theorem C35_decode_prefix_violated : ∃ (m : WordPiece) (words : List Str) (tss : List (List Token)),
    (∀ w ∈ words, ∃ ps, Greedy m true w ps) ∧ words.map m.tokenize = tss.map .ok ∧
    joinDecode (wpDecodeChain m.pre none) (tss.flatten.map (·.value)) ≠ joinSpace words := by
  refine ⟨⟨fun s => some s.length, "[UNK]".toList, "##".toList, 100⟩, ["a".toList, "##b".toList],
    [[⟨1, "a".toList, (0, 1)⟩], [⟨3, "##b".toList, (0, 3)⟩]], ?_, by decide, by decide⟩
  intro w hw
  cases w with
  | nil => simp at hw
  | cons c w =>
    refine ⟨[(c :: w, ((c :: w).length : Int))], ?_⟩
    have := Greedy.cons (m := ⟨fun s => some s.length, "[UNK]".toList, "##".toList, 100⟩) true
      (c :: w) [] ((c :: w).length : Int) [] (by simp) rfl ?_ (.nil false)
    · simpa using this
    · intro p' r' e1 e2
      have := congrArg List.length e1
      simp at this e2
      omega

/-! ### C36 -/

/-- **C36.** One token: the word's id, else the unknown token's; its value is the word and its
span the whole word; an error exactly when neither is in the vocabulary. -/
theorem C36_word_level (vocab : Str → Option Int) (unk w : Str) :
    (∀ id, (vocab w).or (vocab unk) = some id →
      wordLevelTokenize vocab unk w = .ok [⟨id, w, (0, (blen w : Int))⟩]) ∧
    ((vocab w).or (vocab unk) = none → wordLevelTokenize vocab unk w = .err) := by
  unfold wordLevelTokenize
  cases vocab w with
  | some i => simp
  | none => cases vocab unk <;> simp

example : wordLevelTokenize (fun s => if s = "hello".toList then some 5 else none) "<unk>".toList
    "hello".toList = .ok [⟨5, "hello".toList, (0, 5)⟩] := by decide

/-! ### C57: the unit of the offsets -/

/-- **C57, violated.** The offsets of WordPiece tokens count characters, whereas those of the
other models, and the conversion that receives them, count bytes: whenever a word has a
character of more than one byte, its tokens do not cover its bytes. -/
theorem C57_wordpiece_bytes_violated (m : WordPiece) (w : Str) (ts : List Token)
    (h : m.tokenize w = .ok ts) (hm : blen w ≠ w.length) : ¬ TokensTile 0 (blen w : Int) ts := by
  have key : TokensTile 0 (w.length : Int) ts ∨ ∃ t : Token, ts = [t] ∧ t.offsets = (0, (w.length : Int)) := by
    by_cases hl : (w.length : Int) ≤ m.maxChars
    · by_cases hg : ∃ ps, Greedy m true w ps
      · obtain ⟨ps, hps⟩ := hg
        obtain ⟨ts', h1, _, _, h2⟩ := C35_reconstruct m w hl ps hps
        rw [h] at h1
        cases h1
        exact Or.inl h2
      · have := C34_unknown m w (Or.inr fun ps hps => hg ⟨ps, hps⟩)
        rw [h] at this
        cases hv : m.vocab m.unk with
        | none => rw [hv] at this; cases this
        | some id => rw [hv] at this; cases this; exact Or.inr ⟨_, rfl, rfl⟩
    · have := C34_unknown m w (Or.inl (by omega))
      rw [h] at this
      cases hv : m.vocab m.unk with
      | none => rw [hv] at this; cases this
      | some id => rw [hv] at this; cases this; exact Or.inr ⟨_, rfl, rfl⟩
  have huniq : ∀ (ts : List Token) (a b c : Int), TokensTile a b ts → TokensTile a c ts → b = c := by
    intro ts
    induction ts with
    | nil => intro a b c h1 h2; rw [← h1, ← h2]
    | cons t ts ih => intro a b c h1 h2; exact ih _ _ _ h1.2.2 h2.2.2
  intro hb
  rcases key with h1 | ⟨t, rfl, h1⟩
  · have := huniq ts 0 _ _ h1 hb
    omega
  · have h2 := hb.2.2
    simp only [TokensTile, h1] at h2
    omega

/-- **C57.** A word of single-byte characters: the offsets cover its bytes. -/
theorem C57_wordpiece_bytes_partial (m : WordPiece) (w : Str) (hl : (w.length : Int) ≤ m.maxChars)
    (ps : List (Str × Int)) (h : Greedy m true w ps) (hw : blen w = w.length) :
    ∃ ts, m.tokenize w = .ok ts ∧ TokensTile 0 (blen w : Int) ts := by
  obtain ⟨ts, h1, _, _, h2⟩ := C35_reconstruct m w hl ps h
  exact ⟨ts, h1, by rw [hw]; exact h2⟩

/-- **C57.** WordLevel tokens cover the bytes of the word. -/
theorem C57_wordlevel_bytes (vocab : Str → Option Int) (unk w : Str) (hw : w ≠ []) (ts : List Token)
    (h : wordLevelTokenize vocab unk w = .ok ts) : TokensTile 0 (blen w : Int) ts := by
  have hp : 0 < blen w := by
    cases w with
    | nil => exact absurd rfl hw
    | cons c w => have := Char.utf8Size_pos c; simp; omega
  unfold wordLevelTokenize at h
  split at h
  · cases h; refine ⟨rfl, ?_, rfl⟩; simp; omega
  · split at h
    · cases h
    · cases h; refine ⟨rfl, ?_, rfl⟩; simp; omega

end Tok
