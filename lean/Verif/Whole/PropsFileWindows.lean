import Verif.Whole.PropsFileLimits
import Verif.Whole.PropsFileTrimmed

/-!
# C138: the windows of files that trim offsets
-/

namespace Tok.Whole

open Tok.PreTok Tok.Added Tok.Config
open Tok.Norm (okAnd okAnd_spec)

/-! ### Specification -/

/-- The file without its sections "truncation", "padding" and "post_processor". -/
def unprocessed (c : FileConfig) : FileConfig := { unlimited c with postProcessor := none }

/-- `w'` is `w` with the offsets trimmed (`trimmedPlace`), if this is wanted. -/
structure Trims (trim a : Bool) (w w' : Encoding) : Prop where
  ids : w'.ids = w.ids
  tokens : w'.tokens = w.tokens
  typeIds : w'.typeIds = w.typeIds
  words : w'.words = w.words
  specialMask : w'.specialMask = w.specialMask
  attentionMask : w'.attentionMask = w.attentionMask
  offsets : TrimmedIf trim a w w'

/-! ### Lemmas -/

theorem trims_of {trim a : Bool} {w w' : Encoding} (h : TrimmedTo trim a w w') : Trims trim a w w' :=
  ⟨h.1 .ids (by simp), h.1 .tokens (by simp), h.1 .typeIds (by simp), h.1 .words (by simp), h.1 .specialMask (by simp),
    h.1 .attentionMask (by simp), h.2⟩

/-- The post-processor of a file is read apart from everything else. -/
theorem reader_processor {E : FileEnv} {c : FileConfig} {b : Built} (h : fromReader E (some (unprocessed c)) = .ok b)
    {p : ProcCfg} (hp : fromSection createProc c.postProcessor = .ok (some p)) :
    fromReader E (some (unlimited c)) = .ok { b with tok := { b.tok with processor := some (procFn p) } } ∧
      b.tok.trunc = none ∧ b.tok.padding = none ∧ b.tok.processor = none := by
  simp only [fromReader, unprocessed, unlimited] at h ⊢
  obtain ⟨a1, h1, h⟩ := Res.bind_eq_ok.mp h
  obtain ⟨a2, h2, h⟩ := Res.bind_eq_ok.mp h
  obtain ⟨a3, h3, h⟩ := Res.bind_eq_ok.mp h
  obtain ⟨a4, h4, h⟩ := Res.bind_eq_ok.mp h
  obtain ⟨a5, h5, h⟩ := Res.bind_eq_ok.mp h
  obtain ⟨a6, h6, h⟩ := Res.bind_eq_ok.mp h
  obtain ⟨a7, h7, h⟩ := Res.bind_eq_ok.mp h
  obtain ⟨a8, h8, h⟩ := Res.bind_eq_ok.mp h
  obtain ⟨tr, ht, h⟩ := Res.bind_eq_ok.mp h
  cases ht
  cases h4
  cases h
  rw [h1, Res.bind_ok, h2, Res.bind_ok, h3, Res.bind_ok, hp, Res.bind_ok, h5, Res.bind_ok, h6, Res.bind_ok, h7, Res.bind_ok, h8]
  exact ⟨rfl, rfl, rfl, rfl⟩

theorem unprocessed_single {b : Built} (h1 : b.tok.trunc = none) (h2 : b.tok.padding = none) (h3 : b.tok.processor = none)
    {x : InputSequence} {full : Encoding} (hf : b.tok.encode (.single x) false = .ok (some full)) :
    b.tok.tk.encodeSingle x 0 .byte = .ok full := by
  simp only [Tokenizer.encode, Tokenizer.encodeWith, h1, h2, h3] at hf
  obtain ⟨e, he, hf⟩ := Res.bind_eq_ok.mp hf
  cases hf
  exact he

/-! ### C138 -/

/-- C138 (windows, RobertaProcessing that trims offsets): the result and its overflowing parts are `<s> w' </s>` for the overlapping
windows `w` of the tokens that the file gives without post-processor, where `w'` is `w` with trimmed offsets. None has more than
`L` tokens. -/
theorem C138_windows_roberta_partial (E : FileEnv) (c : FileConfig) (q : List (Str × Val)) (L stride : Nat) (pq : List (Str × Val))
    (cls sep : Str × Int) (a : Bool) (hq : c.truncation = some q) (hcut : CutsAt q L stride) (hpad : c.padding = none)
    (hpost : c.postProcessor = some pq) (hty : TypeIs pq "RobertaProcessing") (hcls : TokenIs pq "cls" cls)
    (hsep : TokenIs pq "sep" sep) (htrim : get pq "trim_offsets" = .bool true) (hprefix : get pq "add_prefix_space" = .bool a)
    (hs : stride + 2 < L) (b : Built) (hb : fromReader E (some (unprocessed c)) = .ok b) :
    ∃ b', fromReader E (some c) = .ok b' ∧ ∀ (x : InputSequence) (full : Encoding), b.tok.encode (.single x) false = .ok (some full) →
      ∃ r ws, b'.tok.encode (.single x) true = .ok (some r) ∧ Sliding (L - 2) stride full ws ∧
        List.Forall₂ (fun w r' => ∃ w', Trims true a w w' ∧ Framed [cls] [sep] w' r') ws (r :: r.overflowing) ∧
        ∀ r' ∈ r :: r.overflowing, r'.ids.length ≤ L := by
  obtain ⟨h1, u1, u2, u3⟩ := reader_processor hb
    (by rw [hpost]; exact fromSection_some (C70_postProcessor pq _ (.roberta pq sep cls true a hty hsep hcls htrim hprefix)))
  obtain ⟨st, hst, hread⟩ := cut_read hq hcut h1
  refine ⟨_, hread, ?_⟩
  intro x full hf
  have he := unprocessed_single u1 u2 u3 hf
  obtain ⟨r, ws, k1, k2, k3, k4⟩ := C97_windows_roberta
    { b.tok with processor := some (procFn (.roberta sep cls true a)), trunc := some ⟨L, st, stride⟩, padding := createPadding c.padding }
    (by dsimp only; rw [hpad]; rfl) ⟨⟨sep.1, sep.2⟩, ⟨cls.1, cls.2⟩, true, a⟩ rfl (by dsimp only; rw [procFn]) L stride st rfl hst hs .byte x full he
  refine ⟨r, ws, k1, k2, ?_, fun r' hr' => k4 r' hr' .ids⟩
  refine k3.imp ?_
  rintro w r' ⟨w', hw, hr⟩
  exact ⟨w', trims_of hw, hr .ids, hr .tokens, hr .offsets, hr .typeIds, hr .specialMask, hr .attentionMask⟩

/-- C138 (windows, ByteLevel): the result and its overflowing parts are the overlapping windows of `L` of the tokens that the file
gives without post-processor, with trimmed offsets if the file says so. -/
theorem C138_windows_bytelevel_partial (E : FileEnv) (c : FileConfig) (q : List (Str × Val)) (L stride : Nat) (pq : List (Str × Val))
    (trim a : Bool) (hq : c.truncation = some q) (hcut : CutsAt q L stride) (hpad : c.padding = none)
    (hpost : c.postProcessor = some pq) (hty : TypeIs pq "ByteLevel") (htrim : FlagIs pq "trim_offsets" trim)
    (hprefix : FlagIs pq "add_prefix_space" a) (hs : stride < L) (b : Built) (hb : fromReader E (some (unprocessed c)) = .ok b) :
    ∃ b', fromReader E (some c) = .ok b' ∧ ∀ (x : InputSequence) (special : Bool) (full : Encoding),
      b.tok.encode (.single x) false = .ok (some full) →
      ∃ r ws, b'.tok.encode (.single x) special = .ok (some r) ∧ Sliding L stride full ws ∧
        List.Forall₂ (Trims trim a) ws (r :: r.overflowing) ∧ ∀ r' ∈ r :: r.overflowing, r'.ids.length ≤ L := by
  obtain ⟨h1, u1, u2, u3⟩ := reader_processor hb
    (by rw [hpost]; exact fromSection_some (C70_postProcessor pq _ (.byteLevel pq a trim hty hprefix htrim)))
  obtain ⟨st, hst, hread⟩ := cut_read hq hcut h1
  refine ⟨_, hread, ?_⟩
  intro x special full hf
  have he := unprocessed_single u1 u2 u3 hf
  obtain ⟨r, ws, k1, k2, k3⟩ := C97_windows_bytelevel
    { b.tok with processor := some (procFn (.byteLevel a trim)), trunc := some ⟨L, st, stride⟩, padding := createPadding c.padding }
    (by dsimp only; rw [hpad]; rfl) trim a (by dsimp only; rw [procFn]) L stride st rfl hst hs .byte special x full he
  have k4 : List.Forall₂ (Trims trim a) ws (r :: r.overflowing) := k3.imp fun w r' hw => trims_of hw
  refine ⟨r, ws, k1, k2, k4, ?_⟩
  intro r' hr'
  obtain ⟨w, hw, hwr⟩ := forall₂_mem_right k4 hr'
  have := k2.short hw .ids
  simp only [Encoding.arr] at this
  rw [hwr.ids]
  exact this

/-! ### Cases -/

/-- "h h h" in windows of two between the special tokens. -/
example : ∃ (b' : Built) (r : Encoding),
    fromReader caseFileEnv (some { trimmedFile exampleFileBytes (robertaTrims false) with truncation := some cutSection }) = .ok b' ∧
    b'.tok.encode (.single (.raw (encStr "h h h".toList))) true = .ok (some r) ∧ ∀ r' ∈ r :: r.overflowing, r'.ids.length ≤ 4 := by
  have h : okAnd (fromReader caseFileEnv (some (unprocessed (trimmedFile exampleFileBytes (robertaTrims false))))) (fun b =>
      okAnd (b.tok.encode (.single (.raw (encStr "h h h".toList))) false) (fun o => o.isSome)) = true := by decide +kernel
  obtain ⟨b, hb, h⟩ := okAnd_spec h
  obtain ⟨o, ho, h⟩ := okAnd_spec h
  obtain ⟨full, rfl⟩ := Option.isSome_iff_exists.mp h
  obtain ⟨b', h1, h2⟩ := C138_windows_roberta_partial caseFileEnv
    { trimmedFile exampleFileBytes (robertaTrims false) with truncation := some cutSection } cutSection 4 1 (robertaTrims false)
    (['<', 's', '>'], 257) (['<', '/', 's', '>'], 258) false rfl cutSection_cuts rfl rfl (by unfold TypeIs; rfl)
    (by unfold TokenIs; rfl) (by unfold TokenIs; rfl) (by rfl) (by rfl) (by decide) b hb
  obtain ⟨r, ws, h3, _, _, h4⟩ := h2 _ full ho
  exact ⟨b', r, h1, h3, h4⟩

example : okAnd (fromReader caseFileEnv (some { trimmedFile exampleFileBytes (robertaTrims false) with truncation := some cutSection })) (fun b =>
    okAnd (b.tok.encodeSingle (encStr "h h h".toList) [true]) (fun o =>
      decide (o.map (fun r => (r :: r.overflowing).map (·.offsets)) =
        some [[(0, 0), (0, 1), (2, 3), (0, 0)], [(0, 0), (2, 3), (4, 5), (0, 0)]]))) = true := by
  decide +kernel

/-- With ByteLevel nothing is around the windows. -/
example : ∃ (b' : Built) (r : Encoding),
    fromReader caseFileEnv (some { trimmedFile exampleFileBytes exampleFileBytes with truncation := some cutSection }) = .ok b' ∧
    b'.tok.encode (.single (.raw (encStr "h h h h h".toList))) true = .ok (some r) ∧ ∀ r' ∈ r :: r.overflowing, r'.ids.length ≤ 4 := by
  have h : okAnd (fromReader caseFileEnv (some (unprocessed (trimmedFile exampleFileBytes exampleFileBytes)))) (fun b =>
      okAnd (b.tok.encode (.single (.raw (encStr "h h h h h".toList))) false) (fun o => o.isSome)) = true := by decide +kernel
  obtain ⟨b, hb, h⟩ := okAnd_spec h
  obtain ⟨o, ho, h⟩ := okAnd_spec h
  obtain ⟨full, rfl⟩ := Option.isSome_iff_exists.mp h
  obtain ⟨b', h1, h2⟩ := C138_windows_bytelevel_partial caseFileEnv
    { trimmedFile exampleFileBytes exampleFileBytes with truncation := some cutSection } cutSection 4 1 exampleFileBytes
    true false rfl cutSection_cuts rfl rfl (by unfold TypeIs; rfl) (.inl (by rfl)) (.inl (by rfl)) (by decide) b hb
  obtain ⟨r, ws, h3, _, _, h4⟩ := h2 _ true full ho
  exact ⟨b', r, h1, h3, h4⟩

end Tok.Whole
