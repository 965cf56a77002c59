import Verif.Config.Components
import Verif.Config.PropsCreateModel
import Verif.Norm.Replace

/-!
# C70: normalizers, pre-tokenizers, post-processors and decoders from a configuration
-/

namespace Tok.Config

open Tok.Norm (Behavior)
open Tok.PreTok (Scheme)

/-! ### What a configuration describes -/

/-- A flag: the value given, false if there is none. -/
def FlagIs (m : List (Str × Val)) (k : String) (b : Bool) : Prop :=
  get m k = .bool b ∨ (get m k = .null ∧ b = false)

/-- The field "type". -/
def TypeIs (m : List (Str × Val)) (s : String) : Prop := get m "type" = .str s.toList

/-- A field that is a string. -/
def StrIs (m : List (Str × Val)) (k : String) (s : Str) : Prop := get m k = .str s

/-- The normalizer that an object describes. -/
inductive NormDesc (env : Env) : List (Str × Val) → NormCfg → Prop
  | bert (m : List (Str × Val)) (clean lower chinese accents : Bool) : TypeIs m "BertNormalizer" →
      FlagIs m "clean_text" clean → FlagIs m "lowercase" lower → FlagIs m "handle_chinese_chars" chinese →
      FlagIs m "strip_accents" accents → NormDesc env m (.bert clean lower chinese accents)
  | strip (m : List (Str × Val)) (l r : Bool) : TypeIs m "Strip" ∨ TypeIs m "StripNormalizer" →
      FlagIs m "strip_left" l → FlagIs m "strip_right" r → NormDesc env m (.strip l r)
  | stripAccents (m : List (Str × Val)) : TypeIs m "StripAccents" → NormDesc env m .stripAccents
  | nfc (m : List (Str × Val)) : TypeIs m "NFC" → NormDesc env m .nfc
  | nfd (m : List (Str × Val)) : TypeIs m "NFD" → NormDesc env m .nfd
  | nfkc (m : List (Str × Val)) : TypeIs m "NFKC" → NormDesc env m .nfkc
  | nfkd (m : List (Str × Val)) : TypeIs m "NFKD" → NormDesc env m .nfkd
  | lowercase (m : List (Str × Val)) : TypeIs m "Lowercase" → NormDesc env m .lowercase
  | precompiled (m : List (Str × Val)) (s : Str) : TypeIs m "Precompiled" → StrIs m "precompiled_charsmap" s →
      env.charsmap s = true → NormDesc env m (.precompiled s)
  | replace (m pm : List (Str × Val)) (s content : Str) : TypeIs m "Replace" → get m "pattern" = .obj pm →
      StrIs pm "String" s → StrIs m "content" content → NormDesc env m (.replace false s content)
  | prepend (m : List (Str × Val)) (s : Str) : TypeIs m "Prepend" → StrIs m "prepend" s → NormDesc env m (.prepend s)
  | sequence (m : List (Str × Val)) (l : List (List (Str × Val))) (cs : List NormCfg) : TypeIs m "Sequence" →
      get m "normalizers" = .arr (l.map .obj) → l.length = cs.length →
      (∀ (i : Nat) x c, l[i]? = some x → cs[i]? = some c → NormDesc env x c) → NormDesc env m (.sequence cs)

/-- The behaviors and their names. -/
def behaviorName : Behavior → String
  | .removed => "Removed"
  | .isolated => "Isolated"
  | .mergedWithPrevious => "MergedWithPrevious"
  | .mergedWithNext => "MergedWithNext"
  | .contiguous => "Contiguous"

/-- The names of the schemes. -/
def schemeName : Scheme → String
  | .always => "always"
  | .first => "first"
  | .never => "never"

/-- The pre-tokenizer that an object describes. -/
inductive PreDesc (env : Env) : List (Str × Val) → PreCfg → Prop
  | bert (m : List (Str × Val)) : TypeIs m "BertPreTokenizer" → PreDesc env m .bert
  | byteLevel (m : List (Str × Val)) (a t : Bool) : TypeIs m "ByteLevel" → FlagIs m "add_prefix_space" a →
      FlagIs m "trim_offsets" t → PreDesc env m (.byteLevel a t)
  | delimiter (m : List (Str × Val)) (c : Char) : TypeIs m "Delimiter" → StrIs m "delimiter" [c] →
      PreDesc env m (.delimiter c)
  | metaspace (m : List (Str × Val)) (rep : Str) (b : Bool) : TypeIs m "Metaspace" → StrIs m "replacement" rep →
      get m "prepend_scheme" = .null → FlagIs m "add_prefix_space" b →
      PreDesc env m (.metaspace rep (if b then .always else .never) b)
  | metaspaceScheme (m : List (Str × Val)) (rep : Str) (s : Scheme) (name : Str) : TypeIs m "Metaspace" →
      StrIs m "replacement" rep → StrIs m "prepend_scheme" name → env.lower name = (schemeName s).toList →
      PreDesc env m (.metaspace rep s (decide (s ≠ .never)))
  | whitespace (m : List (Str × Val)) : TypeIs m "Whitespace" → PreDesc env m .whitespace
  | whitespaceSplit (m : List (Str × Val)) : TypeIs m "WhitespaceSplit" → PreDesc env m .whitespaceSplit
  | punctuation (m : List (Str × Val)) (b : Behavior) : TypeIs m "Punctuation" →
      StrIs m "behavior" (behaviorName b).toList → PreDesc env m (.punctuation b)
  | digits (m : List (Str × Val)) (b : Bool) : TypeIs m "Digits" → get m "individual_digits" = .bool b →
      PreDesc env m (.digits b)
  | unicodeScripts (m : List (Str × Val)) : TypeIs m "UnicodeScripts" → PreDesc env m .unicodeScripts
  | split (m pm : List (Str × Val)) (re : Str) (b : Behavior) (inv : Bool) : TypeIs m "Split" →
      get m "pattern" = .obj pm → StrIs pm "Regex" re → env.compiles re = true →
      StrIs m "behavior" (behaviorName b).toList → get m "invert" = .bool inv → PreDesc env m (.split re b inv)
  | sequence (m : List (Str × Val)) (l : List (List (Str × Val))) (cs : List PreCfg) : TypeIs m "Sequence" →
      get m "pretokenizers" = .arr (l.map .obj) → l.length = cs.length →
      (∀ (i : Nat) x c, l[i]? = some x → cs[i]? = some c → PreDesc env x c) → PreDesc env m (.sequence cs)

/-- A token and its id. -/
def TokenIs (m : List (Str × Val)) (k : String) (t : Str × Int) : Prop := get m k = .arr [.str t.1, .float t.2]

/-- The post-processor that an object describes. Templates are the subject of C52. -/
inductive ProcDesc : List (Str × Val) → ProcCfg → Prop
  | roberta (m : List (Str × Val)) (sep cls : Str × Int) (t a : Bool) : TypeIs m "RobertaProcessing" →
      TokenIs m "sep" sep → TokenIs m "cls" cls → get m "trim_offsets" = .bool t →
      get m "add_prefix_space" = .bool a → ProcDesc m (.roberta sep cls t a)
  | bert (m : List (Str × Val)) (sep cls : Str × Int) : TypeIs m "BertProcessing" → TokenIs m "sep" sep →
      TokenIs m "cls" cls → ProcDesc m (.bert sep cls)
  | byteLevel (m : List (Str × Val)) (a t : Bool) : TypeIs m "ByteLevel" → FlagIs m "add_prefix_space" a →
      FlagIs m "trim_offsets" t → ProcDesc m (.byteLevel a t)
  | template (m : List (Str × Val)) (t : TemplateProc) : TypeIs m "TemplateProcessing" → createTemplate m = .ok t →
      ProcDesc m (.template t)
  | sequence (m : List (Str × Val)) (l : List (List (Str × Val))) (cs : List ProcCfg) : TypeIs m "Sequence" →
      get m "processors" = .arr (l.map .obj) → l.length = cs.length →
      (∀ (i : Nat) x c, l[i]? = some x → cs[i]? = some c → ProcDesc x c) → ProcDesc m (.sequence cs)

/-- The decoder that an object describes. -/
inductive DecDesc : List (Str × Val) → DecCfg → Prop
  | bpe (m : List (Str × Val)) (s : Str) : TypeIs m "BPE" → StrIs m "suffix" s → DecDesc m (.bpe s)
  | byteLevel (m : List (Str × Val)) (a t : Bool) : TypeIs m "ByteLevel" → FlagIs m "add_prefix_space" a →
      FlagIs m "trim_offsets" t → DecDesc m (.byteLevel a t)
  | wordPiece (m : List (Str × Val)) (p : Str) (c : Bool) : TypeIs m "WordPiece" → StrIs m "prefix" p →
      get m "cleanup" = .bool c → DecDesc m (.wordPiece p c)
  | metaspace (m : List (Str × Val)) (r : Str) (a : Bool) : TypeIs m "Metaspace" → StrIs m "replacement" r →
      FlagIs m "add_prefix_space" a → DecDesc m (.metaspace r a)
  | ctc (m : List (Str × Val)) (p w : Str) (c : Bool) : TypeIs m "CTC" → StrIs m "pad_token" p →
      StrIs m "word_delimiter" w → get m "cleanup" = .bool c → DecDesc m (.ctc p w c)
  | replace (m pm : List (Str × Val)) (s content : Str) : TypeIs m "Replace" → get m "pattern" = .obj pm →
      StrIs pm "String" s → StrIs m "content" content → DecDesc m (.replace false s content)
  | fuse (m : List (Str × Val)) : TypeIs m "Fuse" → DecDesc m .fuse
  | strip (m : List (Str × Val)) (c : Str) (a b : Int) : TypeIs m "Strip" → StrIs m "content" c →
      get m "start" = .float a → get m "stop" = .float b → DecDesc m (.strip c a b)
  | byteFallback (m : List (Str × Val)) : TypeIs m "ByteFallback" → DecDesc m .byteFallback
  | sequence (m : List (Str × Val)) (l : List (List (Str × Val))) (cs : List DecCfg) : TypeIs m "Sequence" →
      get m "decoders" = .arr (l.map .obj) → l.length = cs.length →
      (∀ (i : Nat) x c, l[i]? = some x → cs[i]? = some c → DecDesc x c) → DecDesc m (.sequence cs)

/-! ### Helpers -/

theorem flag_ok {m : List (Str × Val)} {k : String} {b : Bool} (h : FlagIs m k b) : flag m k = .ok b := by
  unfold flag
  rcases h with h | ⟨h, rfl⟩ <;> rw [h]

theorem str_ok {m : List (Str × Val)} {k : String} {s : Str} (h : StrIs m k s) : asStr (get m k) = .ok s := by
  rw [show get m k = .str s from h]; rfl

theorem type_ok {m : List (Str × Val)} {s : String} (h : TypeIs m s) : asStr (get m "type") = .ok s.toList := by
  rw [show get m "type" = .str s.toList from h]; rfl

theorem token_ok {m : List (Str × Val)} {k : String} {t : Str × Int} (h : TokenIs m k t) : postToken m k = .ok t := by
  unfold postToken
  rw [show get m k = .arr [.str t.1, .float t.2] from h]
  simp only [asArr, asStr, asFloat, truncInt_int, Res.bind_ok]

theorem behavior_ok (b : Behavior) : behaviorOf (behaviorName b).toList = .ok b := by
  cases b <;> rfl

/-- All elements of a list are read. -/
theorem reads_all {β : Type} (f : List (Str × Val) → Res β) (fs : List Val → Res (List β)) (h0 : fs [] = .ok [])
    (h1 : ∀ x rest, fs (.obj x :: rest) = (do let a ← f x; let as ← fs rest; .ok (a :: as))) :
    ∀ (l : List (List (Str × Val))) (cs : List β), l.length = cs.length →
      (∀ (i : Nat) x c, l[i]? = some x → cs[i]? = some c → f x = .ok c) → fs (l.map .obj) = .ok cs := by
  intro l
  induction l with
  | nil =>
    intro cs hl _
    cases cs with
    | nil => exact h0
    | cons c cs => simp at hl
  | cons x l ih =>
    intro cs hl h
    cases cs with
    | nil => simp at hl
    | cons c cs =>
      rw [List.map_cons, h1, h 0 x c rfl rfl, ih cs (by simpa using hl) (fun i y d hy hd => h (i + 1) y d (by simpa using hy) (by simpa using hd))]
      rfl

/-! ### The properties -/

/-- C70: `CreateNormalizer` makes the normalizer that the object describes. -/
theorem C70_normalizer_partial (env : Env) (m : List (Str × Val)) (c : NormCfg) (h : NormDesc env m c) :
    createNorm env m = .ok c := by
  induction h with
  | bert m clean lower chinese accents ht h1 h2 h3 h4 =>
    rw [createNorm, type_ok ht, flag_ok h1, flag_ok h2, flag_ok h3, flag_ok h4]
    rfl
  | strip m l r ht h1 h2 =>
    rw [createNorm, flag_ok h1, flag_ok h2]
    rcases ht with ht | ht <;> rw [type_ok ht] <;> rfl
  | stripAccents m ht => rw [createNorm, type_ok ht]; rfl
  | nfc m ht => rw [createNorm, type_ok ht]; rfl
  | nfd m ht => rw [createNorm, type_ok ht]; rfl
  | nfkc m ht => rw [createNorm, type_ok ht]; rfl
  | nfkd m ht => rw [createNorm, type_ok ht]; rfl
  | lowercase m ht => rw [createNorm, type_ok ht]; rfl
  | precompiled m s ht h1 h2 =>
    have hh : has m "precompiled_charsmap" = true := by rw [has_iff, show get m "precompiled_charsmap" = .str s from h1]; simp
    rw [createNorm, type_ok ht, str_ok h1, hh]
    simp only [Res.bind_ok, h2]
    rfl
  | replace m pm s content ht h1 h2 h3 =>
    have hh : has pm "String" = true := by rw [has_iff, show get pm "String" = .str s from h2]; simp
    rw [createNorm, type_ok ht, str_ok h3, replacePattern, h1]
    simp only [asObj, Res.bind_ok, hh, if_true, str_ok h2]
    rfl
  | prepend m s ht h1 =>
    rw [createNorm, type_ok ht, opt_str (o := some s) h1]
    rfl
  | sequence m l cs ht h1 h2 _ ih =>
    have hh : has m "normalizers" = true := by rw [has_iff, h1]; simp
    have hr := reads_all (createNorm env) (createNorms env) (by rw [createNorms]) (fun x rest => by rw [createNorms])
      l cs h2 ih
    rw [createNorm, type_ok ht, hh, getArr_ok h1]
    simp only [Res.bind_ok, hr]
    rfl

/-- C70: `CreatePreTokenizer` makes the pre-tokenizer that the object describes. -/
theorem C70_preTokenizer_partial (env : Env) (m : List (Str × Val)) (c : PreCfg) (h : PreDesc env m c) :
    createPre env m = .ok c := by
  induction h with
  | bert m ht => rw [createPre, type_ok ht]; rfl
  | byteLevel m a t ht h1 h2 => rw [createPre, type_ok ht, flag_ok h1, flag_ok h2]; rfl
  | delimiter m c ht h1 => rw [createPre, type_ok ht, str_ok h1]; rfl
  | metaspace m rep b ht h1 h2 h3 =>
    have : createMetaspace env m = .ok (.metaspace rep (if b then .always else .never) b) := by
      rw [createMetaspace, opt_str (o := some rep) h1, opt_null h2]
      simp only [Res.bind_ok, flag_ok h3, Option.getD_some]
    rw [createPre, type_ok ht, this]
    rfl
  | metaspaceScheme m rep s name ht h1 h2 h3 =>
    have : createMetaspace env m = .ok (.metaspace rep s (decide (s ≠ .never))) := by
      rw [createMetaspace, opt_str (o := some rep) h1, opt_str (o := some name) h2]
      simp only [Res.bind_ok, h3, Option.getD_some]
      cases s <;> rfl
    rw [createPre, type_ok ht, this]
    rfl
  | whitespace m ht => rw [createPre, type_ok ht]; rfl
  | whitespaceSplit m ht => rw [createPre, type_ok ht]; rfl
  | punctuation m b ht h1 =>
    rw [createPre, type_ok ht, str_ok h1]
    simp only [Res.bind_ok, behavior_ok]
    rfl
  | digits m b ht h1 => rw [createPre, type_ok ht, h1]; rfl
  | unicodeScripts m ht => rw [createPre, type_ok ht]; rfl
  | split m pm re b inv ht h1 h2 h3 h4 h5 =>
    have hp : splitPattern pm = .ok re := by
      unfold splitPattern
      have : get pm "Regex" = .str re := h2
      unfold get at this
      cases hl : lookup pm "Regex" with
      | none => rw [hl] at this; cases this
      | some v =>
        rw [hl] at this
        have : v = .str re := this
        rw [this]; rfl
    rw [createPre, type_ok ht, h1, str_ok h4, h5]
    simp only [asObj, asBool, Res.bind_ok, hp, h3, behavior_ok]
    rfl
  | sequence m l cs ht h1 h2 _ ih =>
    have hr := reads_all (createPre env) (createPres env) (by rw [createPres]) (fun x rest => by rw [createPres])
      l cs h2 ih
    rw [createPre, type_ok ht, getArr_ok h1]
    simp only [Res.bind_ok, hr]
    rfl

/-- C70: `CreatePostProcessor` makes the post-processor that the object describes. -/
theorem C70_postProcessor (m : List (Str × Val)) (c : ProcCfg) (h : ProcDesc m c) : createProc m = .ok c := by
  induction h with
  | roberta m sep cls t a ht h1 h2 h3 h4 =>
    rw [createProc, type_ok ht, token_ok h1, token_ok h2, h3, h4]; rfl
  | bert m sep cls ht h1 h2 => rw [createProc, type_ok ht, token_ok h1, token_ok h2]; rfl
  | byteLevel m a t ht h1 h2 => rw [createProc, type_ok ht, flag_ok h1, flag_ok h2]; rfl
  | template m t ht h1 => rw [createProc, type_ok ht, h1]; rfl
  | sequence m l cs ht h1 h2 _ ih =>
    have hr := reads_all createProc createProcs (by rw [createProcs]) (fun x rest => by rw [createProcs]) l cs h2 ih
    rw [createProc, type_ok ht, getArr_ok h1]
    simp only [Res.bind_ok, hr]
    rfl

/-- C70: `CreateDecoder` makes the decoder that the object describes. -/
theorem C70_decoder_partial (m : List (Str × Val)) (c : DecCfg) (h : DecDesc m c) : createDec m = .ok c := by
  induction h with
  | bpe m s ht h1 => rw [createDec, type_ok ht, str_ok h1]; rfl
  | byteLevel m a t ht h1 h2 => rw [createDec, type_ok ht, flag_ok h1, flag_ok h2]; rfl
  | wordPiece m p c ht h1 h2 => rw [createDec, type_ok ht, str_ok h1, h2]; rfl
  | metaspace m r a ht h1 h2 => rw [createDec, type_ok ht, opt_str (o := some r) h1, flag_ok h2]; rfl
  | ctc m p w c ht h1 h2 h3 => rw [createDec, type_ok ht, str_ok h1, str_ok h2, h3]; rfl
  | replace m pm s content ht h1 h2 h3 =>
    have hh : has pm "String" = true := by rw [has_iff, show get pm "String" = .str s from h2]; simp
    rw [createDec, type_ok ht, str_ok h3, replacePattern, h1]
    simp only [asObj, Res.bind_ok, hh, if_true, str_ok h2]
    rfl
  | fuse m ht => rw [createDec, type_ok ht]; rfl
  | strip m c a b ht h1 h2 h3 =>
    rw [createDec, type_ok ht, str_ok h1, h2, h3]
    simp only [asFloat, truncInt_int]
    rfl
  | byteFallback m ht => rw [createDec, type_ok ht]; rfl
  | sequence m l cs ht h1 h2 _ ih =>
    have hr := reads_all createDec createDecs (by rw [createDecs]) (fun x rest => by rw [createDecs]) l cs h2 ih
    rw [createDec, type_ok ht, getArr_ok h1]
    simp only [Res.bind_ok, hr]
    rfl

/-- C70: another type is an error. -/
theorem C70_unknown_type (env : Env) (m : List (Str × Val)) (s : Str) (h : get m "type" = .str s)
    (hs : ∀ k ∈ ["BertNormalizer", "StripNormalizer", "Strip", "StripAccents", "NFC", "NFD", "NFKC", "NFKD", "Sequence",
      "Lowercase", "Nmt", "Precompiled", "Replace", "Prepend", "BertPreTokenizer", "ByteLevel", "Delimiter", "Metaspace",
      "Whitespace", "WhitespaceSplit", "Punctuation", "Digits", "UnicodeScripts", "Split", "RobertaProcessing",
      "BertProcessing", "TemplateProcessing", "BPE", "WordPiece", "CTC", "Fuse", "ByteFallback"], s ≠ k.toList) :
    createNorm env m = .err ∧ createPre env m = .err ∧ createProc m = .err ∧ createDec m = .err := by
  have e : ∀ k : String, k ∈ ["BertNormalizer", "StripNormalizer", "Strip", "StripAccents", "NFC", "NFD", "NFKC", "NFKD", "Sequence",
      "Lowercase", "Nmt", "Precompiled", "Replace", "Prepend", "BertPreTokenizer", "ByteLevel", "Delimiter", "Metaspace",
      "Whitespace", "WhitespaceSplit", "Punctuation", "Digits", "UnicodeScripts", "Split", "RobertaProcessing",
      "BertProcessing", "TemplateProcessing", "BPE", "WordPiece", "CTC", "Fuse", "ByteFallback"] → (s = k.toList) = False :=
    fun k hk => eq_false (hs k hk)
  refine ⟨?_, ?_, ?_, ?_⟩
  · rw [createNorm, str_ok h]
    simp only [Res.bind_ok, e "BertNormalizer" (by decide), e "StripNormalizer" (by decide), e "Strip" (by decide),
      e "StripAccents" (by decide), e "NFC" (by decide), e "NFD" (by decide), e "NFKC" (by decide), e "NFKD" (by decide),
      e "Sequence" (by decide), e "Lowercase" (by decide), e "Nmt" (by decide), e "Precompiled" (by decide),
      e "Replace" (by decide), e "Prepend" (by decide), if_false, or_self]
  · rw [createPre, str_ok h]
    simp only [Res.bind_ok, e "BertPreTokenizer" (by decide), e "ByteLevel" (by decide), e "Delimiter" (by decide),
      e "Metaspace" (by decide), e "Whitespace" (by decide), e "Sequence" (by decide), e "WhitespaceSplit" (by decide),
      e "Punctuation" (by decide), e "Digits" (by decide), e "UnicodeScripts" (by decide), e "Split" (by decide), if_false]
  · rw [createProc, str_ok h]
    simp only [Res.bind_ok, e "RobertaProcessing" (by decide), e "BertProcessing" (by decide), e "ByteLevel" (by decide),
      e "TemplateProcessing" (by decide), e "Sequence" (by decide), if_false]
  · rw [createDec, str_ok h]
    simp only [Res.bind_ok, e "BPE" (by decide), e "ByteLevel" (by decide), e "WordPiece" (by decide),
      e "Metaspace" (by decide), e "CTC" (by decide), e "Sequence" (by decide), e "Replace" (by decide), e "Fuse" (by decide),
      e "Strip" (by decide), e "ByteFallback" (by decide), if_false]

/-- C70 fails for a replacement by a regular expression, whatever the expression: the pattern is lost
and the empty string is taken for it. -/
theorem C70_regex_violated (env : Env) (m pm : List (Str × Val)) (re : Val) (content : Str) (ht : TypeIs m "Replace")
    (hp : get m "pattern" = .obj pm) (_ : get pm "Regex" = re) (hs : get pm "String" = .null)
    (hm : get m "Regex" = .null) (hc : StrIs m "content" content) :
    createNorm env m = .ok (.replace false [] content) ∧ createDec m = .ok (.replace false [] content) := by
  have h1 : has pm "String" = false := by
    rw [Bool.eq_false_iff]
    intro h
    exact (has_iff pm "String").mp h hs
  have h2 : has m "Regex" = false := by
    rw [Bool.eq_false_iff]
    intro h
    exact (has_iff m "Regex").mp h hm
  have hr : replacePattern m = .ok (false, []) := by
    rw [replacePattern, hp]
    simp only [asObj, Res.bind_ok, h1, h2]
    rfl
  constructor
  · rw [createNorm, type_ok ht, str_ok hc, hr]; rfl
  · rw [createDec, type_ok ht, str_ok hc, hr]; rfl

/-- And a replacement of the empty string changes nothing, on every string. -/
theorem C70_regex_replace_violated (n : Tok.Norm.NStr) (engine : List UInt8 → List (Nat × Nat)) (content : List UInt8) :
    n.replace (.str [] engine) content = .ok n := by
  unfold Tok.Norm.NStr.replace Tok.Norm.Pat.find
  simp [Tok.Norm.replaceLoop]

/-- C70 fails for "Nmt", one of the types listed (pretrained/normalizer.go:13, 61): a panic. -/
theorem C70_nmt_violated (env : Env) (m : List (Str × Val)) (ht : TypeIs m "Nmt") : createNorm env m = .panic := by
  rw [createNorm, type_ok ht]
  rfl

/-- C70 fails for objects without a type, always: a panic instead of an error. -/
theorem C70_no_type_violated (env : Env) (m : List (Str × Val)) (h : get m "type" = .null) :
    createNorm env m = .panic ∧ createPre env m = .panic ∧ createProc m = .panic ∧ createDec m = .panic := by
  refine ⟨?_, ?_, ?_, ?_⟩
  · rw [createNorm, h]; rfl
  · rw [createPre, h]; rfl
  · rw [createProc, h]; rfl
  · rw [createDec, h]; rfl

/-- C70 fails for BERT and RoBERTa processors whose separator has no name or no id, always: a panic instead of an
error. -/
theorem C70_short_token_violated (m : List (Str × Val)) (l : List Val) (hsep : get m "sep" = .arr l) (hl : l.length < 2)
    (ht : TypeIs m "BertProcessing" ∨ TypeIs m "RobertaProcessing") : createProc m = .panic := by
  have hp : postToken m "sep" = .panic := by
    unfold postToken
    rw [hsep]
    match l, hl with
    | [], _ => rfl
    | [_], _ => rfl
  rcases ht with ht | ht
  · rw [createProc, type_ok ht, hp]; rfl
  · rw [createProc, type_ok ht, hp]; rfl

/-- C70 fails for `Split` by a string, always: the string is taken for a regular expression; if it is
none, that is a panic. -/
theorem C70_split_string_violated (env : Env) (m pm : List (Str × Val)) (s : Str) (b : Behavior) (inv : Bool)
    (ht : TypeIs m "Split") (hp : get m "pattern" = .obj pm) (hr : lookup pm "Regex" = none) (hs : StrIs pm "String" s)
    (hb : StrIs m "behavior" (behaviorName b).toList) (hi : get m "invert" = .bool inv) :
    (env.compiles s = true → createPre env m = .ok (.split s b inv)) ∧
    (env.compiles s = false → createPre env m = .panic) := by
  have hpat : splitPattern pm = .ok s := by
    unfold splitPattern
    rw [hr]
    have : get pm "String" = .str s := hs
    unfold get at this
    cases hl : lookup pm "String" with
    | none => rw [hl] at this; cases this
    | some v =>
      rw [hl] at this
      have : v = .str s := this
      rw [this]; rfl
  constructor
  · intro h
    rw [createPre, type_ok ht, hp, str_ok hb, hi]
    simp only [asObj, asBool, Res.bind_ok, hpat, h, behavior_ok]
    rfl
  · intro h
    rw [createPre, type_ok ht, hp, str_ok hb, hi]
    simp only [asObj, asBool, Res.bind_ok, hpat, h]
    rfl

/-- C70 fails for "use_regex": a byte-level pre-tokenizer that is not to split is the same as one that is. -/
theorem C70_use_regex_violated (env : Env) (m : List (Str × Val)) (b : Bool) (ht : TypeIs m "ByteLevel") :
    createPre env (("use_regex".toList, .bool b) :: m) = createPre env m := by
  have g : ∀ k : String, k.toList ≠ "use_regex".toList → get (("use_regex".toList, .bool b) :: m) k = get m k := by
    intro k hk
    unfold get lookup
    rw [mget]
    split
    · next h => exact absurd (by simpa using h : "use_regex".toList = k.toList).symm hk
    · rfl
  have ht' : TypeIs (("use_regex".toList, .bool b) :: m) "ByteLevel" := by
    unfold TypeIs
    rw [g "type" (by decide +kernel)]
    exact ht
  have f : ∀ k : String, k.toList ≠ "use_regex".toList → flag (("use_regex".toList, .bool b) :: m) k = flag m k := by
    intro k hk
    unfold flag
    rw [g k hk]
  rw [createPre, createPre, type_ok ht, type_ok ht', f "add_prefix_space" (by decide +kernel), f "trim_offsets" (by decide +kernel)]
  rfl

theorem bad_entry {β : Type} (f : List (Str × Val) → Res β) (fs : List Val → Res (List β))
    (h1 : ∀ x rest, fs (.obj x :: rest) = (do let a ← f x; let as ← fs rest; .ok (a :: as)))
    (v : Val) (rest : List Val) (hv : fs (v :: rest) = .panic) (pre : List (List (Str × Val)))
    (hpre : ∀ x ∈ pre, ∃ c, f x = .ok c) : fs (pre.map .obj ++ v :: rest) = .panic := by
  induction pre with
  | nil => exact hv
  | cons x xs ih =>
    obtain ⟨c, hc⟩ := hpre x (List.mem_cons_self ..)
    rw [List.map_cons, List.cons_append, h1, hc, Res.bind_ok, ih (fun y hy => hpre y (List.mem_cons_of_mem _ hy))]
    rfl

/-- C70 fails for a sequence with an entry that is no object, always: after entries that are read, such
an entry is a panic, not an error, in each of the four kinds of components. -/
theorem C70_bad_entry_violated (env : Env) (m : List (Str × Val)) (pre : List (List (Str × Val))) (v : Val)
    (rest : List Val) (hv : ∀ x, v ≠ .obj x) (ht : TypeIs m "Sequence") :
    (get m "normalizers" = .arr (pre.map .obj ++ v :: rest) → (∀ x ∈ pre, ∃ c, createNorm env x = .ok c) →
      createNorm env m = .panic) ∧
    (get m "pretokenizers" = .arr (pre.map .obj ++ v :: rest) → (∀ x ∈ pre, ∃ c, createPre env x = .ok c) →
      createPre env m = .panic) ∧
    (get m "processors" = .arr (pre.map .obj ++ v :: rest) → (∀ x ∈ pre, ∃ c, createProc x = .ok c) →
      createProc m = .panic) ∧
    (get m "decoders" = .arr (pre.map .obj ++ v :: rest) → (∀ x ∈ pre, ∃ c, createDec x = .ok c) →
      createDec m = .panic) := by
  refine ⟨fun h hp => ?_, fun h hp => ?_, fun h hp => ?_, fun h hp => ?_⟩
  · have := bad_entry (createNorm env) (createNorms env) (fun x rest => by rw [createNorms]) v rest
      (by rw [createNorms]; exact fun x e => hv x e) pre hp
    have hh : has m "normalizers" = true := by rw [has_iff, h]; simp
    rw [createNorm, type_ok ht, getArr_ok h]
    simp only [Res.bind_ok, this, hh]
    rfl
  · have := bad_entry (createPre env) (createPres env) (fun x rest => by rw [createPres]) v rest
      (by rw [createPres]; exact fun x e => hv x e) pre hp
    rw [createPre, type_ok ht, getArr_ok h]
    simp only [Res.bind_ok, this]
    rfl
  · have := bad_entry createProc createProcs (fun x rest => by rw [createProcs]) v rest
      (by rw [createProcs]; exact fun x e => hv x e) pre hp
    rw [createProc, type_ok ht, getArr_ok h]
    simp only [Res.bind_ok, this]
    rfl
  · have := bad_entry createDec createDecs (fun x rest => by rw [createDecs]) v rest
      (by rw [createDecs]; exact fun x e => hv x e) pre hp
    rw [createDec, type_ok ht, getArr_ok h]
    simp only [Res.bind_ok, this]
    rfl

/-- C70 for `Split`: a pattern with neither a regular expression nor a string is an error. -/
theorem C70_split_no_pattern (env : Env) (m pm : List (Str × Val)) (s : Str) (inv : Bool)
    (ht : TypeIs m "Split") (hp : get m "pattern" = .obj pm) (hr : lookup pm "Regex" = none)
    (hs : lookup pm "String" = none) (hb : StrIs m "behavior" s) (hi : get m "invert" = .bool inv) :
    createPre env m = .err := by
  have hpat : splitPattern pm = .err := by
    unfold splitPattern
    rw [hr, hs]
  rw [createPre, type_ok ht, hp, str_ok hb, hi]
  simp only [asObj, asBool, Res.bind_ok, hpat]
  rfl

/-- C70: a normalizer "Precompiled" without a map of characters, or with one that cannot be read, is an error. -/
theorem C70_no_charsmap (env : Env) (m : List (Str × Val)) (ht : TypeIs m "Precompiled")
    (h : get m "precompiled_charsmap" = .null ∨ ∃ s, get m "precompiled_charsmap" = .str s ∧ env.charsmap s = false) :
    createNorm env m = .err := by
  rw [createNorm, type_ok ht]
  rcases h with h | ⟨s, h, h'⟩
  · have : has m "precompiled_charsmap" = false := by
      cases hh : has m "precompiled_charsmap" with
      | false => rfl
      | true => rw [has_iff, h] at hh; simp at hh
    simp only [Res.bind_ok, this]
    rfl
  · have : has m "precompiled_charsmap" = true := by rw [has_iff, h]; simp
    simp only [Res.bind_ok, this, h, asStr, h']
    rfl

example (env : Env) : createNorm env [("type".toList, .str "Precompiled".toList)] = .err :=
  C70_no_charsmap env _ (by unfold TypeIs; rfl) (.inl rfl)

/-- Both cases occur. -/
example (env : Env) : createNorm env [("type".toList, .str "Sequence".toList), ("normalizers".toList,
      .arr [.str "NFD".toList, .null])] = .panic :=
  (C70_bad_entry_violated env [("type".toList, .str "Sequence".toList), ("normalizers".toList,
      .arr [.str "NFD".toList, .null])] [] (.str "NFD".toList) [.null] (fun x e => by cases e)
    (by unfold TypeIs; rfl)).1 rfl (fun x hx => absurd hx List.not_mem_nil)

example (env : Env) : createPre env [("type".toList, .str "Split".toList), ("pattern".toList, .obj []),
      ("behavior".toList, .str "Isolated".toList), ("invert".toList, .bool false)] = .err :=
  C70_split_no_pattern env _ [] "Isolated".toList false (by unfold TypeIs; rfl) rfl rfl rfl (by unfold StrIs; rfl) rfl

/-! ### Instances -/

/-- A sequence of two normalizers as in a configuration. -/
def seqCfg : List (Str × Val) :=
  [("type".toList, .str "Sequence".toList),
   ("normalizers".toList, .arr [
     .obj [("type".toList, .str "Strip".toList), ("strip_left".toList, .bool true)],
     .obj [("type".toList, .str "Replace".toList), ("pattern".toList, .obj [("String".toList, .str "``".toList)]),
       ("content".toList, .str "\"".toList)]])]

/-- It describes: strip on the left, then replace. -/
example (env : Env) : NormDesc env seqCfg (.sequence [.strip true false, .replace false "``".toList "\"".toList]) := by
  refine .sequence _ [[("type".toList, .str "Strip".toList), ("strip_left".toList, .bool true)],
    [("type".toList, .str "Replace".toList), ("pattern".toList, .obj [("String".toList, .str "``".toList)]),
       ("content".toList, .str "\"".toList)]] _ rfl rfl rfl ?_
  intro i x c hx hc
  match i, hx, hc with
  | 0, hx, hc =>
    cases hx
    cases hc
    exact .strip _ _ _ (Or.inl rfl) (Or.inl rfl) (Or.inr ⟨rfl, rfl⟩)
  | 1, hx, hc =>
    cases hx
    cases hc
    exact .replace _ _ _ _ rfl rfl rfl rfl
  | i + 2, hx, _ => simp at hx

/-- `Metaspace` as in a configuration of T5. -/
example (env : Env) : PreDesc env
    [("type".toList, .str "Metaspace".toList), ("replacement".toList, .str "▁".toList), ("add_prefix_space".toList, .bool true)]
    (.metaspace "▁".toList .always true) := .metaspace _ _ true rfl rfl rfl (Or.inl rfl)

/-- `RobertaProcessing`. -/
example : ProcDesc
    [("type".toList, .str "RobertaProcessing".toList), ("sep".toList, .arr [.str "</s>".toList, .float 2]),
      ("cls".toList, .arr [.str "<s>".toList, .float 0]), ("trim_offsets".toList, .bool true),
      ("add_prefix_space".toList, .bool false)]
    (.roberta ("</s>".toList, 2) ("<s>".toList, 0) true false) := .roberta _ _ _ _ _ rfl rfl rfl rfl rfl

/-- `WordPiece` as decoder. -/
example : DecDesc
    [("type".toList, .str "WordPiece".toList), ("prefix".toList, .str "##".toList), ("cleanup".toList, .bool true)]
    (.wordPiece "##".toList true) := .wordPiece _ _ _ rfl rfl rfl

/-- An unknown type. -/
example (env : Env) : createNorm env [("type".toList, .str "NFX".toList)] = .err :=
  (C70_unknown_type env _ "NFX".toList rfl (by decide +kernel)).1

/-- A replacement by a regular expression. -/
def regexCfg : List (Str × Val) :=
  [("type".toList, .str "Replace".toList), ("pattern".toList, .obj [("Regex".toList, .str " {2,}".toList)]),
    ("content".toList, .str " ".toList)]

example (env : Env) : createNorm env regexCfg = .ok (.replace false [] " ".toList) :=
  (C70_regex_violated env regexCfg [("Regex".toList, .str " {2,}".toList)] (.str " {2,}".toList) " ".toList
    rfl rfl rfl rfl rfl rfl).1

/-- A split at "(" is a panic: it is no regular expression. -/
def parenCfg : List (Str × Val) :=
  [("type".toList, .str "Split".toList), ("pattern".toList, .obj [("String".toList, .str "(".toList)]),
    ("behavior".toList, .str "Isolated".toList), ("invert".toList, .bool false)]

example (env : Env) (h : env.compiles "(".toList = false) : createPre env parenCfg = .panic :=
  (C70_split_string_violated env parenCfg [("String".toList, .str "(".toList)] "(".toList .isolated false
    rfl rfl rfl rfl rfl rfl).2 h

end Tok.Config
