import Verif.PreTok.PropsTokenizers
import Verif.PreTok.PropsUnigramText
import Verif.Word.Props

/-!
# C64 with a WordPiece model on texts of single-byte characters
-/

namespace Tok.PreTok

open Tok.Norm

/-! ### The model is only asked about pieces of the text -/

theorem cut_pieces {s : Str} {gaps : Bool} {ok : Str → List Token → Prop} {u w : Str} {ss : List Split}
    (h : Cut s gaps ok u w ss) : ∀ sp ∈ ss, ∃ a m b, s = a ++ m ++ b ∧ m ≠ [] ∧ sp.normalized.normalized = encStr m := by
  induction h with
  | done u => intro sp hsp; cases hsp
  | skip u g _ ss _ _ ih => exact ih
  | part u m _ x t ss hp hm _ _ ih =>
    intro sp hsp
    rcases List.mem_cons.mp hsp with rfl | hsp
    · obtain ⟨⟨v, hv⟩, hf, _⟩ := hp
      refine ⟨u, m, v, hv, hm, ?_⟩
      exact hf.text
    · exact ih sp hsp

theorem tokenizeLoop_congr {f g : NStr → Res (Option (List Token))} (ss : List Split)
    (h : ∀ sp ∈ ss, f sp.normalized = g sp.normalized) : tokenizeLoop f ss = tokenizeLoop g ss := by
  induction ss with
  | nil => rfl
  | cons sp ss ih =>
    have ih := ih (fun sp hsp => h sp (by simp [hsp]))
    have h0 := h sp (by simp)
    rw [tokenizeLoop, tokenizeLoop, ih, h0]

/-- Two models that agree on the pieces of the text give the same encoding. -/
theorem encodeSingle_congr {t : Tk} {gaps : Bool} {f g : List UInt8 → Res (Option (List Token))}
    (hn : t.normalizer = none) (h1 : ProperSet t.splitRe) (h2 : ProperSet t.splitNormalizedRe)
    (hp : ∀ p, t.preTokenizer = some p → OnlyCuts gaps p) (hf : t.model = some f) (hg : ModelLocates g) (s : Str)
    (hfg : ∀ a m b, s = a ++ m ++ b → m ≠ [] → f (encStr m) = g (encStr m)) (typeId : Int) :
    Plain { t with model := some g } gaps ∧
    t.encodeSingle (.raw (encStr s)) typeId .byte =
      ({ t with model := some g } : Tk).encodeSingle (.raw (encStr s)) typeId .byte := by
  have hpl : Plain { t with model := some g } gaps := ⟨hn, h1, h2, hp, g, rfl, hg⟩
  refine ⟨hpl, ?_⟩
  have key : t.encodeOne (encStr s) typeId (-1) .byte =
      ({ t with model := some g } : Tk).encodeOne (encStr s) typeId (-1) .byte := by
    obtain ⟨ps, pt, _, k1, k2, k3, _⟩ := extract_any hpl s
    have k1' : t.extractAndNormalize (encStr s) = .ok pt := k1
    have hpre : ∃ pt', t.doPreTokenize pt = .ok pt' ∧
        Cut s gaps (fun m ts => m ≠ [] ∧ TokensFor { t with model := some g } m ts) [] s pt'.splits := by
      unfold Tk.doPreTokenize
      cases hq : t.preTokenizer with
      | none => exact ⟨pt, rfl, k3.gaps⟩
      | some p =>
        obtain ⟨pt', e1, _, e3, _⟩ := hp p hq s _ pt k2 k3.gaps
        exact ⟨pt', e1, e3⟩
    obtain ⟨pt', p1, p2⟩ := hpre
    have p1' : ({ t with model := some g } : Tk).doPreTokenize pt = .ok pt' := p1
    simp only [Tk.encodeOne, k1, k1', p1, p1', Res.bind_ok, Tk.doTokenize, PTS.tokenize, hf]
    rw [tokenizeLoop_congr (f := fun n => f n.normalized) (g := fun n => g n.normalized) pt'.splits ?_]
    intro sp hsp
    obtain ⟨a, m, b, e1, e2, e3⟩ := cut_pieces p2 sp hsp
    simp only [e3]
    exact hfg a m b e1 e2
  simp only [Tk.encodeSingle, key]

/-! ### WordPiece -/

theorem blen_single {s : Str} (h : ∀ c ∈ s, c.utf8Size = 1) : blen s = s.length := by
  induction s with
  | nil => rfl
  | cons c s ih =>
    rw [blen_cons, h c (by simp), ih (fun c hc => h c (by simp [hc])), List.length_cons]; omega

/-- The token stands for the text between its offsets: its value is the text, the text behind the
prefix, or the unknown token. -/
def Stands (pre unk m : Str) (t : Token) : Prop :=
  ∃ a w b, m = a ++ w ++ b ∧ w ≠ [] ∧ t.offsets = (((blen a : Nat) : Int), ((blen (a ++ w) : Nat) : Int)) ∧
    (t.value = w ∨ t.value = pre ++ w ∨ t.value = unk)

theorem piecesToTokens_mem (m : WordPiece) (ps : List (Str × Int)) : ∀ (first : Bool) (k : Nat), ∀ x ∈ piecesToTokens m first k ps,
    ∃ as p id bs, ps = as ++ (p, id) :: bs ∧ x.offsets =
      (((k + (as.map (·.1)).flatten.length : Nat) : Int), ((k + ((as.map (·.1)).flatten ++ p).length : Nat) : Int)) ∧
      (x.value = p ∨ x.value = m.pre ++ p) := by
  induction ps with
  | nil => intro first k x hx; cases hx
  | cons q ps ih =>
    obtain ⟨p, id⟩ := q
    intro first k x hx
    rw [piecesToTokens] at hx
    rcases List.mem_cons.mp hx with rfl | hx
    · refine ⟨[], p, id, ps, rfl, by simp, ?_⟩
      simp only [WordPiece.entry]
      cases first <;> simp
    · obtain ⟨as, p', id', bs, e1, e2, e3⟩ := ih _ _ x hx
      refine ⟨(p, id) :: as, p', id', bs, by rw [e1]; rfl, ?_, e3⟩
      rw [e2]
      simp only [List.map_cons, List.flatten_cons, List.length_append]
      congr 2 <;> omega

theorem wordPiece_stands (m : WordPiece) (hu : m.vocab m.unk ≠ none) (w : Str) (hw : w ≠ [])
    (h1 : ∀ c ∈ w, c.utf8Size = 1) :
    ∃ ts, wordPieceModel m (encStr w) = .ok (some ts) ∧ ts ≠ [] ∧ ∀ t ∈ ts, Stands m.pre m.unk w t := by
  obtain ⟨uid, huid⟩ := Option.ne_none_iff_exists'.mp hu
  have hunk : (m.maxChars < w.length ∨ ∀ ps, ¬ Greedy m true w ps) →
      ∃ ts, wordPieceModel m (encStr w) = .ok (some ts) ∧ ts ≠ [] ∧ ∀ t ∈ ts, Stands m.pre m.unk w t := by
    intro h
    have := C34_unknown m w h
    rw [huid] at this
    refine ⟨[⟨uid, m.unk, (0, (w.length : Int))⟩], by simp only [wordPieceModel, decStr_enc, this, Res.bind_ok], by simp, ?_⟩
    intro t ht
    rw [List.mem_singleton] at ht
    subst ht
    exact ⟨[], w, [], by simp, hw, by simp [blen_single h1], .inr (.inr rfl)⟩
  by_cases hl : (w.length : Int) ≤ m.maxChars
  · by_cases hg : ∃ ps, Greedy m true w ps
    · obtain ⟨ps, hps⟩ := hg
      obtain ⟨hf, hne⟩ := greedy_flatten hps
      refine ⟨piecesToTokens m true 0 ps, by simp only [wordPieceModel, decStr_enc, C34_greedy m w hl ps hps, Res.bind_ok], ?_, ?_⟩
      · cases ps with
        | nil => exact absurd hf.symm hw
        | cons p ps => simp [piecesToTokens]
      · intro t ht
        obtain ⟨as, p, id, bs, e1, e2, e3⟩ := piecesToTokens_mem m ps true 0 t ht
        have hs : w = (as.map (·.1)).flatten ++ p ++ (bs.map (·.1)).flatten := by rw [← hf, e1]; simp
        refine ⟨(as.map (·.1)).flatten, p, (bs.map (·.1)).flatten, hs, ?_, ?_, ?_⟩
        · exact hne (p, id) (by rw [e1]; simp)
        · rw [e2, blen_single, blen_single]
          · simp
          · intro c hc; exact h1 c (by rw [hs]; simp only [List.mem_append] at hc ⊢; exact .inl hc)
          · intro c hc; exact h1 c (by rw [hs]; simp only [List.mem_append]; exact .inl (.inl hc))
        · rcases e3 with e3 | e3
          · exact .inl e3
          · exact .inr (.inl e3)
    · exact hunk (.inr fun ps hps => hg ⟨ps, hps⟩)
  · exact hunk (.inl (by omega))

/-- **C64, WordPiece.** Encoding a text of single-byte characters with a WordPiece model that has its
unknown token: every entry has the place of a piece of the text, and its token is the piece, the piece
behind the prefix, or the unknown token. -/
theorem C64_wordpiece_partial {t : Tk} {gaps : Bool} (m : WordPiece) (hu : m.vocab m.unk ≠ none)
    (hn : t.normalizer = none) (h1 : ProperSet t.splitRe) (h2 : ProperSet t.splitNormalizedRe)
    (hp : ∀ p, t.preTokenizer = some p → OnlyCuts gaps p) (hm : t.model = some (wordPieceModel m)) (s : Str)
    (hs : ∀ c ∈ s, c.utf8Size = 1) (typeId : Int) :
    ∃ e, t.encodeSingle (.raw (encStr s)) typeId .byte = .ok e ∧
      ∀ (k : Nat) v o, e.tokens[k]? = some v → e.offsets[k]? = some o →
        ∃ g w b, s = g ++ w ++ b ∧ w ≠ [] ∧ o = (((blen g : Nat) : Int), ((blen (g ++ w) : Nat) : Int)) ∧
          (v = w ∨ v = m.pre ++ w ∨ v = m.unk) := by
  let g : List UInt8 → Res (Option (List Token)) := fun bs =>
    if (∀ c ∈ decStr bs, c.utf8Size = 1) then wordPieceModel m bs
    else .ok (some [⟨0, decStr bs, (0, (blen (decStr bs) : Nat))⟩])
  have hg : ∀ w : Str, (∀ c ∈ w, c.utf8Size = 1) → g (encStr w) = wordPieceModel m (encStr w) := by
    intro w hw
    simp only [g, decStr_enc]
    rw [if_pos hw]
  have hl : ∀ w : Str, w ≠ [] → ∃ ts, g (encStr w) = .ok (some ts) ∧ ts ≠ [] ∧ ∀ x ∈ ts, Stands m.pre m.unk w x := by
    intro w hw
    by_cases h : ∀ c ∈ w, c.utf8Size = 1
    · rw [hg w h]
      exact wordPiece_stands m hu w hw h
    · refine ⟨[⟨0, w, (0, (blen w : Nat))⟩], by simp only [g, decStr_enc]; rw [if_neg h], by simp, ?_⟩
      intro x hx
      rw [List.mem_singleton] at hx
      subst hx
      exact ⟨[], w, [], by simp, hw, by simp, .inl rfl⟩
  obtain ⟨hpl, he⟩ := encodeSingle_congr hn h1 h2 hp hm (g := g) (by
    intro w hw
    obtain ⟨ts, e1, e2, e3⟩ := hl w hw
    refine ⟨ts, e1, e2, ?_⟩
    intro x hx
    obtain ⟨a, p, b, k1, k2, k3, _⟩ := e3 x hx
    exact ⟨a, p, b, k1, k2, k3⟩) s (by
    intro a w b e _
    exact (hg w (fun c hc => hs c (by rw [e]; simp [hc]))).symm) typeId
  rw [he]
  obtain ⟨parts, f1, f2, f3, f4⟩ := C64_encode_partial hpl s typeId
  refine ⟨_, f4, ?_⟩
  intro k v o hv ho
  simp only [ofRows, List.getElem?_map, Option.map_eq_some_iff] at hv ho
  obtain ⟨r, hr, rfl⟩ := hv
  obtain ⟨r', hr', rfl⟩ := ho
  rw [hr] at hr'
  cases hr'
  obtain ⟨pre, w, ts, post, e1, e2, e3⟩ := rowsFrom_mem _ _ _ _ r (List.mem_of_getElem? hr)
  obtain ⟨hne, hts⟩ := f3 (w, some ts) (by rw [e1]; simp) ts rfl
  have hf : Stands m.pre m.unk w r.token := by
    rcases hts with ⟨f, hf, he⟩ | ⟨id, _, _, hid⟩
    · cases hf
      obtain ⟨ts', k1, _, k3⟩ := hl w hne
      rw [k1] at he
      cases he
      exact k3 _ e2
    · rw [hid, List.mem_singleton] at e2
      rw [e2]
      exact ⟨[], w, [], by simp, hne, by simp [addedToken], .inl rfl⟩
  obtain ⟨a, p, b, k1, k2, k3, k4⟩ := hf
  refine ⟨(pre.map (·.1)).flatten ++ a, p, b ++ (post.map (·.1)).flatten, ?_, k2, ?_, k4⟩
  · rw [← f1, e1]
    simp only [List.map_append, List.map_cons, List.flatten_append, List.flatten_cons]
    simp only [List.append_assoc] at k1 ⊢
    rw [k1]
    simp
  · rw [e3, k3]
    simp only [blen_append, Nat.zero_add]
    congr 1
    omega

/-! ### Cases -/

/-- The pieces "un", "##do" and the unknown token "?". -/
def someWordPiece : WordPiece :=
  ⟨fun w => if w = "un".toList then some 0 else if w = "##do".toList then some 1
    else if w = "?".toList then some 2 else none, "?".toList, "##".toList, 100⟩

/-- A tokenizer that cuts at spaces. -/
def wordPieceTk : Tk :=
  { splitRe := ⟨[], fun _ => []⟩
    splitNormalizedRe := ⟨[], fun _ => []⟩
    normalizer := none
    preTokenizer := some (whitespaceSplit (fun c => c == ' '))
    model := some (wordPieceModel someWordPiece) }

/-- The hypotheses of `C64_wordpiece_partial` hold for it. -/
example (s : Str) (hs : ∀ c ∈ s, c.utf8Size = 1) :
    ∃ e, wordPieceTk.encodeSingle (.raw (encStr s)) 0 .byte = .ok e ∧
      ∀ (k : Nat) v o, e.tokens[k]? = some v → e.offsets[k]? = some o →
        ∃ g w b, s = g ++ w ++ b ∧ w ≠ [] ∧ o = (((blen g : Nat) : Int), ((blen (g ++ w) : Nat) : Int)) ∧
          (v = w ∨ v = "##".toList ++ w ∨ v = "?".toList) := by
  refine C64_wordpiece_partial (gaps := true) someWordPiece (by decide) rfl properSet_none properSet_none ?_ rfl s hs 0
  intro p hp
  cases hp
  exact C65_whitespaceSplit _

example : okAnd (wordPieceTk.encodeSingle (.raw (encStr "x undo".toList)) 0 .byte)
    (fun e => decide (e.ids = [2, 0, 1] ∧ e.tokens = ["?".toList, "un".toList, "##do".toList] ∧
      e.offsets = [(0, 1), (2, 4), (4, 6)])) = true := by decide +kernel

end Tok.PreTok
