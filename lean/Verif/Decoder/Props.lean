import Verif.Decoder.Model
import Verif.Word.Props
import Mathlib.Data.List.Forall2

/-! C38 and C39. -/

namespace Tok

/-! ### C39: Decode, Fuse, Sequence -/

/-- C39 (Decode): for a decoder made by a `New…` function, `Decode` is the concatenation of what
`DecodeChain` returns. -/
theorem C39_decode (chain : List Str → Res (List Str)) (ts rs : List Str) (h : chain ts = .ok rs) :
    (newDecoder chain).decode ts = .ok rs.flatten := by
  simp [newDecoder, DecoderVal.decode, h]

/-- C39 fails for the decoders made by `DefaultBpeDecoder`, `DefaultWordpieceDecoder` and
`DefaultCTC`: `Decode` panics on every token list, although `DecodeChain` works. -/
theorem C39_default_decode_violated (ts : List Str) :
    defaultBpeDecoder.decode ts = .panic ∧ defaultWordpieceDecoder.decode ts = .panic ∧
    defaultCTC.decode ts = .panic ∧ (∃ r, defaultBpeDecoder.chain ts = .ok r) ∧
    (∃ r, defaultWordpieceDecoder.chain ts = .ok r) ∧ ∃ r, defaultCTC.chain ts = .ok r :=
  ⟨rfl, rfl, rfl, ⟨_, rfl⟩, ⟨_, rfl⟩, ⟨_, rfl⟩⟩

/-- C39 (Sequence): running a sequence of decoders is running the first part and then the second
on its result. -/
theorem C39_sequence (ds es : List (List Str → Res (List Str))) (ts : List Str) :
    seqChain (ds ++ es) ts =
      match seqChain ds ts with
      | .ok ts' => seqChain es ts'
      | .err => .err
      | .panic => .panic := by
  induction ds generalizing ts with
  | nil => rfl
  | cons d ds ih =>
    simp only [List.cons_append, seqChain]
    cases d ts with
    | ok r => exact ih r
    | err => rfl
    | panic => rfl

/-- C39 (Sequence): the sequence ends at the first decoder that fails, with the failure of this decoder. -/
theorem C39_sequence_fails (ds es : List (List Str → Res (List Str))) (d : List Str → Res (List Str)) (ts ts' : List Str)
    (h : seqChain ds ts = .ok ts') :
    (d ts' = .err → seqChain (ds ++ d :: es) ts = .err) ∧ (d ts' = .panic → seqChain (ds ++ d :: es) ts = .panic) := by
  constructor
  · intro hd
    rw [C39_sequence, h]
    simp only [seqChain, hd]
  · intro hd
    rw [C39_sequence, h]
    simp only [seqChain, hd]

example : seqChain ([fun ts => .ok (ts ++ ts)] ++ (fun _ => .err) :: [fun _ => .panic]) [['a']] = .err :=
  (C39_sequence_fails [fun ts => .ok (ts ++ ts)] [fun _ => .panic] (fun _ => .err) [['a']] _ rfl).1 rfl

/-- C39 (Fuse): a Fuse step at the end of a sequence does not change the decoded text, and leaves
one token. -/
theorem C39_fuse (ds : List (List Str → Res (List Str))) (ts rs : List Str)
    (h : seqChain ds ts = .ok rs) :
    seqChain (ds ++ [fuseChain]) ts = .ok [rs.flatten] ∧
    (newDecoder (seqChain (ds ++ [fuseChain]))).decode ts = (newDecoder (seqChain ds)).decode ts := by
  have : seqChain (ds ++ [fuseChain]) ts = .ok [rs.flatten] := by
    rw [C39_sequence, h]; rfl
  exact ⟨this, by rw [C39_decode _ _ _ this, C39_decode _ _ _ h]; simp⟩

/-! ### C39: BPE -/

/-- `suf` occurs in `p ++ suf` only at the end. -/
def OnlyAtEnd (suf p : Str) : Prop := ∀ k, k < p.length → ¬ suf <+: (p ++ suf).drop k

theorem replaceNE_skip (suf new p r : Str) (h : ∀ k, k < p.length → ¬ suf <+: (p ++ r).drop k) :
    replaceNE suf new (p ++ r) = p ++ replaceNE suf new r := by
  induction p with
  | nil => rfl
  | cons c p ih =>
    rw [List.cons_append, replaceNE, if_neg]
    · rw [ih (fun k hk => by simpa using h (k + 1) (by simpa using hk))]; rfl
    · rintro ⟨_, h2⟩
      exact h 0 (by simp) (by simpa using List.isPrefixOf_iff_prefix.mp h2)

theorem replaceNE_self (suf new : Str) (hs : suf ≠ []) : replaceNE suf new suf = new := by
  cases suf with
  | nil => exact absurd rfl hs
  | cons c cs =>
    rw [replaceNE, if_pos ⟨hs, by simp⟩]
    simp [replaceNE]

theorem replaceAll_end {suf : Str} (new : Str) {p : Str} (hs : suf ≠ []) (h : OnlyAtEnd suf p) :
    replaceAll suf new (p ++ suf) = p ++ new := by
  simp only [replaceAll, hs, if_false]
  rw [replaceNE_skip _ _ _ _ h, replaceNE_self _ _ hs]

theorem replaceAll_none {suf : Str} (new : Str) {p : Str} (hs : suf ≠ []) (h : OnlyAtEnd suf p) :
    replaceAll suf new p = p := by
  simp only [replaceAll, hs, if_false]
  have := replaceNE_skip suf new p [] (fun k hk hp => h k hk (by
    rw [List.append_nil] at hp
    rw [List.drop_append_of_le_length (by omega)]
    exact hp.trans (List.prefix_append _ _)))
  simpa [replaceNE] using this

/-- The tokens of a word given by its pieces: the last one carries the suffix. -/
def suffixWord (suf : Str) : List Str → List Str
  | [] => []
  | [p] => [p ++ suf]
  | p :: q :: ps => p :: suffixWord suf (q :: ps)

theorem bpeDecode_word (suf : Str) (hs : suf ≠ []) (n : Nat) (ps : List Str) (hp : ps ≠ [])
    (h : ∀ p ∈ ps, OnlyAtEnd suf p) (rest : List Str) (i : Nat) (hi : i + ps.length + rest.length = n) :
    (bpeDecode suf n i (suffixWord suf ps ++ rest)).flatten =
      ps.flatten ++ (if rest = [] then [] else [' ']) ++
        (bpeDecode suf n (i + ps.length) rest).flatten := by
  induction ps generalizing i with
  | nil => exact absurd rfl hp
  | cons p ps ih =>
    cases ps with
    | nil =>
      simp only [suffixWord, List.cons_append, List.nil_append, bpeDecode, List.flatten_cons]
      rw [replaceAll_end _ hs (h p (by simp))]
      by_cases hr : rest = []
      · subst hr
        simp at hi
        simp [hi]
      · have : 0 < rest.length := List.length_pos_iff.mpr hr
        simp only [List.length_cons, List.length_nil] at hi
        rw [if_neg (by omega), if_neg hr]
        simp
    | cons q ps =>
      have hih := ih (by simp) (fun x hx => h x (by simp [hx])) (i + 1)
        (by simp only [List.length_cons] at hi ⊢; omega)
      have : suffixWord suf (p :: q :: ps) = p :: suffixWord suf (q :: ps) := rfl
      rw [this, List.cons_append, bpeDecode, List.flatten_cons,
        replaceAll_none _ hs (h p (by simp)), hih]
      rw [show i + 1 + (q :: ps).length = i + (p :: q :: ps).length by simp only [List.length_cons]; omega]
      simp

theorem length_suffixWord (suf : Str) (ps : List Str) : (suffixWord suf ps).length = ps.length := by
  induction ps with
  | nil => rfl
  | cons p ps ih =>
    cases ps with
    | nil => rfl
    | cons q ps => simp only [suffixWord, List.length_cons] at ih ⊢; omega

/-- C39 (BPE): words cut into pieces, the last piece of each carrying the end-of-word suffix,
decode to the words joined by single spaces. -/
theorem C39_bpe (suf : Str) (hs : suf ≠ []) (ws : List (List Str)) (hw : ∀ w ∈ ws, w ≠ [])
    (h : ∀ w ∈ ws, ∀ p ∈ w, OnlyAtEnd suf p) :
    (newDecoder (fun ts => .ok (bpeDecode suf ts.length 0 ts))).decode (ws.flatMap (suffixWord suf)) =
      .ok (List.intercalate [' '] (ws.map List.flatten)) := by
  rw [C39_decode (fun ts => .ok (bpeDecode suf ts.length 0 ts)) _ _ rfl]
  congr 1
  suffices ∀ n i, i + (ws.flatMap (suffixWord suf)).length = n →
      (bpeDecode suf n i (ws.flatMap (suffixWord suf))).flatten =
        List.intercalate [' '] (ws.map List.flatten) from this _ 0 (by simp)
  induction ws with
  | nil => intro n i _; rfl
  | cons w ws ih =>
    intro n i hi
    rw [List.flatMap_cons] at hi ⊢
    rw [List.length_append, length_suffixWord] at hi
    rw [bpeDecode_word suf hs n w (hw w (by simp)) (h w (by simp)) _ i (by omega)]
    rw [ih (fun x hx => hw x (by simp [hx])) (fun x hx => h x (by simp [hx])) n (i + w.length)
      (by omega)]
    cases ws with
    | nil => simp [List.intercalate]
    | cons w' ws =>
      have hne : (w' :: ws).flatMap (suffixWord suf) ≠ [] := by
        intro h0
        have := congrArg List.length h0
        rw [List.flatMap_cons, List.length_append, length_suffixWord] at this
        have hpos := List.length_pos_iff.mpr (hw w' (by simp))
        simp at this
        exact absurd this.1 (hw w' (by simp))
      rw [if_neg hne]
      simp [List.intercalate, List.append_assoc]

/-- C39: the chain of `DefaultBpeDecoder` is that of a BPE decoder whose suffix is `</w>`. -/
theorem C39_bpe_default (ws : List (List Str)) (hw : ∀ w ∈ ws, w ≠ [])
    (h : ∀ w ∈ ws, ∀ p ∈ w, OnlyAtEnd ['<', '/', 'w', '>'] p) :
    ∃ r, defaultBpeDecoder.chain (ws.flatMap (suffixWord ['<', '/', 'w', '>'])) = .ok r ∧
      r.flatten = List.intercalate [' '] (ws.map List.flatten) := by
  have := C39_bpe ['<', '/', 'w', '>'] (by simp) ws hw h
  rw [C39_decode (fun ts => .ok (bpeDecode ['<', '/', 'w', '>'] ts.length 0 ts)) _ _ rfl] at this
  injection this with this
  exact ⟨_, rfl, this⟩

example : (newDecoder (fun ts => .ok (bpeDecode "</w>".toList ts.length 0 ts))).decode
    ["th".toList, "e</w>".toList, "cat</w>".toList] = .ok "the cat".toList := by decide +kernel

/-! ### C39: Strip -/

theorem stripStart_stop (content : Str) (chars : List Str) (r : Nat) : ∀ (fuel i : Nat),
    (∀ k, k < r → chars[i + k]? = some content) → (∃ c, chars[i + r]? = some c ∧ c ≠ content) →
    stripStart content chars fuel i i = .ok (i + min fuel r) := by
  induction r with
  | zero =>
    intro fuel i _ ⟨c, hc, hne⟩
    cases fuel with
    | zero => simp [stripStart]
    | succ f =>
      rw [Nat.add_zero] at hc
      simp [stripStart, hc, hne]
  | succ r ih =>
    intro fuel i hk ⟨c, hc, hne⟩
    cases fuel with
    | zero => simp [stripStart]
    | succ f =>
      have h0 := hk 0 (by omega)
      rw [Nat.add_zero] at h0
      rw [stripStart, h0]
      simp only [if_true]
      rw [ih f (i + 1) (fun k hk' => by
        have := hk (k + 1) (by omega)
        rwa [show i + (k + 1) = i + 1 + k by omega] at this)
        ⟨c, by rwa [show i + (r + 1) = i + 1 + r by omega] at hc, hne⟩]
      congr 1; omega

theorem stripStart_all (content : Str) (chars : List Str) (r : Nat) : ∀ (fuel i : Nat),
    (∀ k, k < r → chars[i + k]? = some content) → chars.length = i + r →
    stripStart content chars fuel i i = if fuel ≤ r then .ok (i + fuel) else .panic := by
  induction r with
  | zero =>
    intro fuel i _ hl
    cases fuel with
    | zero => simp [stripStart]
    | succ f => simp [stripStart, hl]
  | succ r ih =>
    intro fuel i hk hl
    cases fuel with
    | zero => simp [stripStart]
    | succ f =>
      have h0 := hk 0 (by omega)
      rw [Nat.add_zero] at h0
      rw [stripStart, h0]
      simp only [if_true]
      rw [ih f (i + 1) (fun k hk' => by
        have := hk (k + 1) (by omega)
        rwa [show i + (k + 1) = i + 1 + k by omega] at this) (by omega)]
      by_cases hf : f ≤ r
      · rw [if_pos hf, if_pos (by omega)]; congr 1; omega
      · rw [if_neg hf, if_neg (by omega)]

theorem stripStop_stop (content : Str) (chars : List Str) (r : Nat) : ∀ (fuel i : Nat),
    (∀ k, k < r → chars[chars.length - (i + k) - 1]? = some content) →
    (∃ c, chars[chars.length - (i + r) - 1]? = some c ∧ c ≠ content) → i + r < chars.length →
    stripStop content chars fuel i (chars.length - i) = .ok (chars.length - (i + min fuel r)) := by
  induction r with
  | zero =>
    intro fuel i _ ⟨c, hc, hne⟩ hlt
    cases fuel with
    | zero => simp [stripStop]
    | succ f =>
      rw [Nat.add_zero] at hc hlt
      rw [stripStop, if_pos hlt, hc]
      simp [hne]
  | succ r ih =>
    intro fuel i hk ⟨c, hc, hne⟩ hlt
    cases fuel with
    | zero => simp [stripStop]
    | succ f =>
      have h0 := hk 0 (by omega)
      rw [Nat.add_zero] at h0
      rw [stripStop, if_pos (by omega), h0]
      simp only [if_true]
      rw [show chars.length - i - 1 = chars.length - (i + 1) by omega]
      rw [ih f (i + 1) (fun k hk' => by
        have := hk (k + 1) (by omega)
        rwa [show i + (k + 1) = i + 1 + k by omega] at this)
        ⟨c, by rwa [show i + (r + 1) = i + 1 + r by omega] at hc, hne⟩ (by omega)]
      congr 1; omega

theorem stripStop_all (content : Str) (chars : List Str) (r : Nat) : ∀ (fuel i : Nat),
    (∀ k, k < r → chars[chars.length - (i + k) - 1]? = some content) → i + r = chars.length →
    stripStop content chars fuel i (chars.length - i) =
      if fuel ≤ r then .ok (chars.length - (i + fuel)) else .panic := by
  induction r with
  | zero =>
    intro fuel i _ hl
    cases fuel with
    | zero => simp [stripStop]
    | succ f => rw [stripStop, if_neg (by omega), if_neg (by omega)]
  | succ r ih =>
    intro fuel i hk hl
    cases fuel with
    | zero => simp [stripStop]
    | succ f =>
      have h0 := hk 0 (by omega)
      rw [Nat.add_zero] at h0
      rw [stripStop, if_pos (by omega), h0]
      simp only [if_true]
      rw [show chars.length - i - 1 = chars.length - (i + 1) by omega]
      rw [ih f (i + 1) (fun k hk' => by
        have := hk (k + 1) (by omega)
        rwa [show i + (k + 1) = i + 1 + k by omega] at this) (by omega)]
      by_cases hf : f ≤ r
      · rw [if_pos hf, if_pos (by omega)]; congr 2; omega
      · rw [if_neg hf, if_neg (by omega)]

theorem map_single_flatten (l : Str) : (l.map (fun c => [c])).flatten = l := by
  induction l with
  | nil => rfl
  | cons c l ih => simp [ih]

/-- C39 (Strip, partial: only tokens with some other character): at most `start` of the leading
and at most `stop` of the trailing copies of the content character are removed, and nothing
else.  For tokens that consist of the content character only see `C39_strip_violated`. -/
theorem C39_strip_partial (x : Char) (start stop a b : Nat) (m : Str) (y z : Char)
    (hy : m.head? = some y) (hyx : y ≠ x) (hz : m.getLast? = some z) (hzx : z ≠ x) :
    stripToken [x] start stop (List.replicate a x ++ m ++ List.replicate b x) =
      .ok (List.replicate (a - start) x ++ m ++ List.replicate (b - stop) x) := by
  have hm : 0 < m.length := by
    cases m with
    | nil => simp at hy
    | cons _ _ => simp
  have hy' : m[0]? = some y := by rw [← List.head?_eq_getElem?]; exact hy
  have hz' : m[m.length - 1]? = some z := by rw [← List.getLast?_eq_getElem?]; exact hz
  unfold stripToken
  dsimp only
  generalize ht : List.replicate a x ++ m ++ List.replicate b x = t
  have hlen : t.length = a + m.length + b := by rw [← ht]; simp; omega
  have hget : ∀ i : Nat, (t.map (fun c => [c]))[i]? = (t[i]?).map (fun c => [c]) := by simp
  have hfront : ∀ k, k < a → t[k]? = some x := by
    intro k hk
    rw [← ht, List.append_assoc, List.getElem?_append_left (by simpa using hk)]
    simp [hk]
  have hmid : ∀ k, k < m.length → t[a + k]? = m[k]? := by
    intro k hk
    rw [← ht, List.append_assoc, List.getElem?_append_right (by simp)]
    rw [List.getElem?_append_left (by simp; omega)]
    simp
  have hback : ∀ k, k < b → t[a + m.length + k]? = some x := by
    intro k hk
    rw [← ht, List.getElem?_append_right (by simp)]
    simp [hk]
  have h1 := stripStart_stop [x] (t.map (fun c => [c])) a start 0
    (fun k hk => by rw [hget, Nat.zero_add, hfront k hk]; rfl)
    ⟨[y], by rw [hget, Nat.zero_add, show a = a + 0 from rfl, hmid 0 hm, hy']; rfl, by simp [hyx]⟩
  have h2 := stripStop_stop [x] (t.map (fun c => [c])) b stop 0
    (fun k hk => by
      rw [hget, List.length_map, hlen,
        show a + m.length + b - (0 + k) - 1 = a + m.length + (b - 1 - k) by omega,
        hback _ (by omega)]; rfl)
    ⟨[z], by
      rw [hget, List.length_map, hlen,
        show a + m.length + b - (0 + b) - 1 = a + (m.length - 1) by omega,
        hmid _ (by omega), hz']; rfl, by simp [hzx]⟩
    (by rw [List.length_map, hlen]; omega)
  rw [Nat.sub_zero] at h2
  rw [h1, h2]
  simp only [List.length_map, hlen, Nat.zero_add]
  rw [if_pos (by omega)]
  congr 1
  rw [← List.map_take, ← List.map_drop, map_single_flatten, ← ht]
  have e1 : a + m.length + b - min stop b = a + m.length + (b - stop) := by omega
  rw [e1]
  have e2 : (List.replicate a x ++ m ++ List.replicate b x).take (a + m.length + (b - stop)) =
      List.replicate a x ++ m ++ List.replicate (b - stop) x := by
    rw [List.take_append, List.take_of_length_le (by simp)]
    congr 1
    simp only [List.length_append, List.length_replicate]
    rw [List.take_replicate]
    congr 1; omega
  rw [e2, List.append_assoc, List.drop_append_of_le_length (by simp), List.drop_replicate,
    List.append_assoc]
  congr 2
  omega

/-- C39 (Strip, tokens of the content character only): they are stripped when they are long
enough for both ends; otherwise decoding panics instead of giving the empty text. -/
theorem C39_strip_uniform (x : Char) (start stop n : Nat) :
    stripToken [x] start stop (List.replicate n x) =
      if start + stop ≤ n then .ok (List.replicate (n - start - stop) x) else .panic := by
  unfold stripToken
  dsimp only
  have hl : ((List.replicate n x).map (fun c => [c])).length = n := by simp
  have h1 := stripStart_all [x] ((List.replicate n x).map (fun c => [c])) n start 0
    (fun k hk => by simp [hk]) (by simp)
  have h2 := stripStop_all [x] ((List.replicate n x).map (fun c => [c])) n stop 0
    (fun k hk => by
      rw [List.getElem?_map, List.getElem?_replicate, hl, if_pos (by omega)]; rfl) (by simp)
  rw [Nat.sub_zero, hl] at h2
  rw [h1, hl, h2]
  by_cases hs : start ≤ n
  · rw [if_pos hs]
    dsimp only
    by_cases ht : stop ≤ n
    · rw [if_pos ht]
      dsimp only
      simp only [Nat.zero_add]
      by_cases hst : start + stop ≤ n
      · rw [if_pos (by omega), if_pos hst, ← List.map_take, ← List.map_drop, map_single_flatten]
        simp
        omega
      · rw [if_neg (by omega), if_neg hst]
    · rw [if_neg ht, if_neg (by omega)]
  · rw [if_neg hs, if_neg (by omega : ¬ start + stop ≤ n)]

/-- C39 fails for Strip: a token list with an empty token, or with a token made of fewer than
`start + stop` copies of the content character, makes decoding panic. -/
theorem C39_strip_violated (x : Char) (start stop n : Nat) (h : n < start + stop) (ts us : List Str)
    (hts : ∃ r, stripChain [x] start stop ts = .ok r) :
    stripChain [x] start stop (ts ++ List.replicate n x :: us) = .panic := by
  obtain ⟨r, hr⟩ := hts
  induction ts generalizing r with
  | nil =>
    rw [List.nil_append, stripChain, C39_strip_uniform, if_neg (by omega)]
  | cons t ts ih =>
    rw [stripChain] at hr
    rw [List.cons_append, stripChain]
    split at hr
    · next r1 h1 =>
      split at hr
      · next r2 h2 => rw [ih r2 h2]
      · cases hr
      · cases hr
    · cases hr
    · cases hr

example : stripToken ['H'] 1 1 "HHeyH".toList = .ok "Hey".toList := by decide +kernel
example : stripChain [' '] 1 0 ["a".toList, []] = .panic := by decide +kernel

/-! ### C39: CTC -/

/-- The tokens that differ from the token just before them. -/
def withoutRepeats (ts : List Str) : List Str :=
  ((ts.zip (none :: ts.map some)).filter (fun p => some p.1 ≠ p.2)).map (·.1)

theorem ctcDedup_eq (ts : List Str) (prev : Str) :
    ctcDedup prev ts = ((ts.zip (some prev :: ts.map some)).filter (fun p => some p.1 ≠ p.2)).map (·.1) := by
  induction ts generalizing prev with
  | nil => rfl
  | cons t ts ih =>
    rw [ctcDedup]
    simp only [List.map_cons, List.zip_cons_cons]
    by_cases h : t = prev
    · subst h
      rw [if_neg (by simp), ih]
      simp
    · rw [if_pos h, ih]
      simp [h]

/-- The empty token is no text: what the leading-empty-token quirk of `dedup` drops. -/
theorem ctcDedup_filter (f : Str → Str) (hf : f [] = []) (ts : List Str) :
    ((ctcDedup [] ts).map f).filter (fun r => r.length > 0) =
      ((withoutRepeats ts).map f).filter (fun r => r.length > 0) := by
  cases ts with
  | nil => rfl
  | cons t ts =>
    rw [ctcDedup]
    have hw : withoutRepeats (t :: ts) = t :: ctcDedup t ts := by
      rw [ctcDedup_eq]
      simp [withoutRepeats]
    rw [hw]
    by_cases h : t = []
    · subst h
      rw [if_neg (by simp)]
      simp [hf]
    · rw [if_pos h]

theorem replaceAll_nil (old : Str) (h : old ≠ []) (new : Str) : replaceAll old new [] = [] := by
  simp [replaceAll, h, replaceNE]

theorem cleanupText_nil : cleanupText [] = [] := by decide +kernel

/-- C39 (CTC): the result is made of the tokens that differ from the token before them, each
rewritten on its own, and empty ones dropped. -/
theorem C39_ctc (pad delim : Str) (clean : Bool) (hd : delim ≠ []) (ts : List Str) :
    ctcChain pad delim clean ts =
      ((withoutRepeats ts).map (ctcText pad delim clean)).filter (fun r => r.length > 0) := by
  apply ctcDedup_filter
  unfold ctcText
  have h1 : replaceAll pad [] [] = [] := by
    unfold replaceAll
    split
    · rfl
    · simp [replaceNE]
  dsimp only
  rw [h1]
  split
  · rw [cleanupText_nil, replaceAll_nil delim hd]
  · rfl

/-- `DefaultCTC` drops `<pad>`, takes `|` for a space and cleans up. -/
theorem C39_ctc_default (ts : List Str) :
    defaultCTC.chain ts = .ok (((withoutRepeats ts).map (ctcText "<pad>".toList "|".toList true)).filter (fun r => r.length > 0)) := by
  rw [← C39_ctc _ _ _ (by decide)]
  rfl

/-- C39 (CTC, pads): without cleanup, if every token is the pad or does not contain it, only
repeats, pads and empty tokens are removed. -/
theorem C39_ctc_pads (pad delim : Str) (hd : delim ≠ []) (hp : pad ≠ []) (ts : List Str)
    (h : ∀ t ∈ ts, t = pad ∨ ∀ k, ¬ pad <+: t.drop k) :
    ctcChain pad delim false ts =
      (withoutRepeats ts).filter (fun t => t ≠ pad ∧ t ≠ []) := by
  rw [C39_ctc pad delim false hd]
  have hsub : ∀ t ∈ withoutRepeats ts, t ∈ ts := by
    intro t ht
    obtain ⟨p, hp, rfl⟩ := List.mem_map.mp ht
    exact (List.of_mem_zip (List.mem_filter.mp hp).1).1
  revert hsub
  generalize withoutRepeats ts = us
  intro hsub
  induction us with
  | nil => rfl
  | cons t us ih =>
    have iht := ih (fun x hx => hsub x (by simp [hx]))
    rw [List.map_cons, List.filter_cons, List.filter_cons, iht]
    have hrep : ctcText pad delim false t = if t = pad then [] else t := by
      simp only [ctcText, Bool.false_eq_true, if_false, replaceAll, hp]
      split
      · next he => rw [he, replaceNE_self _ _ hp]
      · next he =>
        rcases h t (hsub t (by simp)) with h1 | h1
        · exact absurd h1 he
        · have := replaceNE_skip pad [] t [] (fun k _ => by simpa using h1 k)
          simpa [replaceNE] using this
    rw [hrep]
    by_cases he : t = pad
    · simp [he]
    · cases t with
      | nil => simp
      | cons c cs => simp [he]

example : ctcChain "<pad>".toList "|".toList false
    ["a".toList, "a".toList, "<pad>".toList, "a".toList] = ["a".toList, "a".toList] := by
  decide +kernel

/-! ### C38 -/

/-- A token `<0x??>`. -/
def LooksLikeByte (t : Bytes) : Prop := ∃ a b, t = [60, 48, 120, a, b, 62]

/-- `c` is a hexadecimal digit of value `x`. -/
def HexDigit (c : UInt8) (x : Nat) : Prop :=
  (x < 10 ∧ c.toNat = 48 + x) ∨ (10 ≤ x ∧ x < 16 ∧ (c.toNat = 55 + x ∨ c.toNat = 87 + x))

/-- The token for the byte `b`, with upper- or lower-case digits. -/
def IsByteToken (t : Bytes) (b : UInt8) : Prop :=
  ∃ c d x y, t = [60, 48, 120, c, d, 62] ∧ HexDigit c x ∧ HexDigit d y ∧ b.toNat = 16 * x + y

/-- What decoding should do: other tokens stay; a maximal run of byte tokens becomes its text, or
one replacement character for each byte if the bytes are no text. -/
inductive ByteDecoded : List Bytes → List Bytes → Prop
  | nil : ByteDecoded [] []
  | text (t : Bytes) (ts out : List Bytes) : ¬ LooksLikeByte t → ByteDecoded ts out →
      ByteDecoded (t :: ts) (t :: out)
  | valid (toks : List Bytes) (s : Str) (ts out : List Bytes) : toks ≠ [] →
      List.Forall₂ IsByteToken toks (encStr s) → (∀ t ∈ ts.head?, ¬ LooksLikeByte t) →
      ByteDecoded ts out → ByteDecoded (toks ++ ts) (encStr s :: out)
  | invalid (toks : List Bytes) (bs : Bytes) (ts out : List Bytes) : toks ≠ [] →
      List.Forall₂ IsByteToken toks bs → (¬ ∃ s, bs = encStr s) →
      (∀ t ∈ ts.head?, ¬ LooksLikeByte t) →
      ByteDecoded ts out →
      ByteDecoded (toks ++ ts) (List.replicate bs.length (encStr ['�']) ++ out)

theorem hexVal_iff (c : UInt8) (x : Nat) : hexVal c = some x ↔ HexDigit c x := by
  unfold hexVal HexDigit
  dsimp only
  split
  · simp; omega
  · split
    · simp; omega
    · split
      · simp; omega
      · simp; omega

theorem hexVal_lt {c : UInt8} {x : Nat} (h : HexDigit c x) : x < 16 := by
  unfold HexDigit at h; omega

theorem byteOf_byte {t : Bytes} {b : UInt8} (h : IsByteToken t b) : byteOf t = .ok (some b) := by
  obtain ⟨c, d, x, y, rfl, hx, hy, hb⟩ := h
  have h1 := (hexVal_iff c x).mpr hx
  have h2 := (hexVal_iff d y).mpr hy
  simp only [byteOf, h1, h2]
  congr 2
  have := hexVal_lt hx
  have := hexVal_lt hy
  apply UInt8.toNat_inj.mp
  simp [hb]; omega

theorem byteOf_other {t : Bytes} (h : ¬ LooksLikeByte t) : byteOf t = .ok none := by
  unfold byteOf
  split
  · next a b => exact absurd ⟨a, b, rfl⟩ h
  · rfl

theorem byteOf_bad {t : Bytes} (h : LooksLikeByte t) (hb : ¬ ∃ b, IsByteToken t b) :
    byteOf t = .panic := by
  obtain ⟨a, b, rfl⟩ := h
  simp only [byteOf]
  split
  · next x y hx hy =>
    refine absurd ⟨(16 * x + y).toUInt8, a, b, x, y, rfl, (hexVal_iff _ _).mp hx, (hexVal_iff _ _).mp hy, ?_⟩ hb
    have := hexVal_lt ((hexVal_iff _ _).mp hx)
    have := hexVal_lt ((hexVal_iff _ _).mp hy)
    simp; omega
  · rfl

theorem byteToken_is (b : UInt8) : IsByteToken (Unigram.byteToken b) b := by
  have hb := b.toNat_lt
  have key : ∀ d : Nat, d < 16 → HexDigit ((if d < 10 then 48 + d else 55 + d).toUInt8) d := by
    intro d hd
    unfold HexDigit
    split
    · left; refine ⟨by assumption, ?_⟩; simp; omega
    · right; refine ⟨by omega, hd, .inl ?_⟩; simp; omega
  exact ⟨_, _, b.toNat / 16, b.toNat % 16, rfl, key _ (by omega), key _ (by omega), by omega⟩

theorem byteFallbackLoop_run (toks : List Bytes) (bs : Bytes) (h : List.Forall₂ IsByteToken toks bs)
    (ts out : List Bytes) (prev : Bytes) :
    byteFallbackLoop (toks ++ ts) out prev = byteFallbackLoop ts out (prev ++ bs) := by
  induction h generalizing prev with
  | nil => simp
  | cons h _ ih =>
    rw [List.cons_append, byteFallbackLoop, byteOf_byte h]
    dsimp only
    rw [ih]; simp

theorem byteFallbackLoop_text {t : Bytes} (h : ¬ LooksLikeByte t) (ts out : List Bytes) (prev : Bytes) :
    byteFallbackLoop (t :: ts) out prev = byteFallbackLoop ts (out ++ flushRun prev ++ [t]) [] := by
  rw [byteFallbackLoop, byteOf_other h]

theorem byteFallbackLoop_flush (ts : List Bytes) (h : ∀ t ∈ ts.head?, ¬ LooksLikeByte t)
    (out : List Bytes) (prev : Bytes) :
    byteFallbackLoop ts out prev = byteFallbackLoop ts (out ++ flushRun prev) [] := by
  cases ts with
  | nil => simp [byteFallbackLoop, flushRun]
  | cons t ts =>
    have ht := h t (by simp)
    rw [byteFallbackLoop_text ht, byteFallbackLoop_text ht]
    simp [flushRun]

theorem forall2_ne_nil {toks : List Bytes} {bs : Bytes} (h : List.Forall₂ IsByteToken toks bs)
    (hn : toks ≠ []) : bs ≠ [] := by
  cases h with
  | nil => exact absurd rfl hn
  | cons _ _ => simp

/-- C38 (the decoder): whatever `ByteDecoded` relates to the tokens is what the decoder returns;
so runs of byte tokens become their text, or one replacement character per byte exactly when
they are not valid. -/
theorem C38_decode (ts out : List Bytes) (h : ByteDecoded ts out) : byteFallbackChain ts = .ok out := by
  unfold byteFallbackChain
  suffices ∀ acc, byteFallbackLoop ts acc [] = .ok (acc ++ out) by simpa using this []
  induction h with
  | nil => intro acc; simp [byteFallbackLoop, flushRun]
  | text t ts out ht _ ih =>
    intro acc
    rw [byteFallbackLoop_text ht, ih]
    simp [flushRun]
  | valid toks s ts out hn hf hh _ ih =>
    intro acc
    have hne := forall2_ne_nil hf hn
    rw [byteFallbackLoop_run _ _ hf, byteFallbackLoop_flush _ hh, ih]
    have hv : validUtf8 (encStr s) = true := (validUtf8_iff _).mpr ⟨s, rfl⟩
    simp [flushRun, hne, hv]
  | invalid toks bs ts out hn hf hv hh _ ih =>
    intro acc
    have hne := forall2_ne_nil hf hn
    rw [byteFallbackLoop_run _ _ hf, byteFallbackLoop_flush _ hh, ih]
    have hv : validUtf8 bs = false := by
      cases h : validUtf8 bs with
      | false => rfl
      | true => exact absurd ((validUtf8_iff _).mp h) hv
    have hr : encStr ['�'] = [0xEF, 0xBF, 0xBD] := by decide +kernel
    simp only [flushRun, hne, if_false, hv, Bool.false_eq_true, List.nil_append, hr]
    rw [List.map_const', List.append_assoc]

/-- C38 (every list is covered): unless a token looks like a byte token without being one, there
is a decoding in the sense of `ByteDecoded`, so `C38_decode` says what is returned. -/
theorem C38_decoded_exists (ts : List Bytes) (h : ∀ t ∈ ts, LooksLikeByte t → ∃ b, IsByteToken t b) :
    ∃ out, ByteDecoded ts out := by
  have split : ∀ l : List Bytes, (∀ t ∈ l, LooksLikeByte t → ∃ b, IsByteToken t b) →
      ∃ toks bs rest, l = toks ++ rest ∧ List.Forall₂ IsByteToken toks bs ∧
        (∀ t ∈ rest.head?, ¬ LooksLikeByte t) := by
    intro l
    induction l with
    | nil => intro _; exact ⟨[], [], [], rfl, .nil, by simp⟩
    | cons t l ih =>
      intro hl
      by_cases ht : LooksLikeByte t
      · obtain ⟨b, hb⟩ := hl t (by simp) ht
        obtain ⟨toks, bs, rest, h1, h2, h3⟩ := ih (fun x hx => hl x (by simp [hx]))
        exact ⟨t :: toks, b :: bs, rest, by simp [h1], .cons hb h2, h3⟩
      · exact ⟨[], [], t :: l, rfl, .nil, by simpa using ht⟩
  generalize hn : ts.length = n
  induction n using Nat.strongRecOn generalizing ts with
  | _ n ih =>
    cases ts with
    | nil => exact ⟨[], .nil⟩
    | cons t l =>
      by_cases ht : LooksLikeByte t
      · obtain ⟨toks, bs, rest, h1, h2, h3⟩ := split (t :: l) h
        have hne : toks ≠ [] := by
          intro h0
          subst h0
          simp only [List.nil_append] at h1
          subst h1
          exact h3 t (by simp) ht
        have hlt : rest.length < n := by
          have := congrArg List.length h1
          rw [List.length_append] at this
          have := List.length_pos_iff.mpr hne
          omega
        obtain ⟨out, ho⟩ := ih rest.length hlt rest (fun x hx => h x (by rw [h1]; simp [hx])) rfl
        rw [h1]
        by_cases hv : ∃ s, bs = encStr s
        · obtain ⟨s, rfl⟩ := hv
          exact ⟨_, .valid toks s rest out hne h2 h3 ho⟩
        · exact ⟨_, .invalid toks bs rest out hne h2 hv h3 ho⟩
      · obtain ⟨out, ho⟩ := ih l.length (by simp at hn; omega) l (fun x hx => h x (by simp [hx])) rfl
        exact ⟨_, .text t l out ht ho⟩

/-- C38 fails on other token lists: a token such as `<0xZZ>`, which looks like a byte token without
being one, makes decoding panic. -/
theorem C38_bad_hex_violated (ts : List Bytes) (t : Bytes) (ht : t ∈ ts) (h1 : LooksLikeByte t)
    (h2 : ¬ ∃ b, IsByteToken t b) : byteFallbackChain ts = .panic := by
  unfold byteFallbackChain
  suffices ∀ out prev, byteFallbackLoop ts out prev = .panic from this _ _
  induction ts with
  | nil => simp at ht
  | cons x ts ih =>
    intro out prev
    rw [byteFallbackLoop]
    rcases List.mem_cons.mp ht with rfl | ht
    · rw [byteOf_bad h1 h2]
    · by_cases hx : LooksLikeByte x
      · by_cases hb : ∃ b, IsByteToken x b
        · obtain ⟨b, hb⟩ := hb
          rw [byteOf_byte hb]; exact ih ht _ _
        · rw [byteOf_bad hx hb]
      · rw [byteOf_other hx]; exact ih ht _ _

/-- C38 (round trip): the tokens made by the Unigram model's byte fallback, when all byte tokens
needed are in the vocabulary or there is no unknown token, decode to the text. -/
theorem C38_round_trip {K : Type} [AddCommGroup K] [LinearOrder K] (u : Unigram K) (s : Str)
    (h : u.unkId = none ∨ ∀ b ∈ encStr s, u.tokenToId (Unigram.byteToken b) ≠ none) :
    ∃ out, byteFallbackChain (u.byteFallback (encStr s)) = .ok out ∧ out.flatten = encStr s := by
  have hm : u.byteFallback (encStr s) = (encStr s).map Unigram.byteToken := by
    unfold Unigram.byteFallback
    apply List.map_congr_left
    intro b hb
    split
    · rfl
    · next h1 h2 =>
      rcases h with h | h
      · rw [h] at h2; cases h2
      · exact absurd h1 (h b hb)
    · rfl
  have hf : ∀ bs : Bytes, List.Forall₂ IsByteToken (bs.map Unigram.byteToken) bs := by
    intro bs
    induction bs with
    | nil => exact .nil
    | cons b bs ih => exact .cons (byteToken_is b) ih
  rw [hm]
  by_cases h0 : encStr s = []
  · refine ⟨[], ?_, by simp [h0]⟩
    rw [h0]
    exact C38_decode _ _ .nil
  · refine ⟨[encStr s], ?_, by simp⟩
    have := C38_decode _ _ (.valid _ s [] [] (by simpa using h0) (hf _) (by simp) .nil)
    simpa using this

/-- A run that is cut short: the first two bytes of "€", then a plain token. -/
example : byteFallbackChain [[60, 48, 120, 69, 50, 62], [60, 48, 120, 56, 50, 62], [97]] =
    .ok [[0xEF, 0xBF, 0xBD], [0xEF, 0xBF, 0xBD], [97]] := by decide +kernel
/-- `<0xZZ>` meets the hypotheses of `C38_bad_hex_violated`. -/
example : byteFallbackChain [[60, 48, 120, 90, 90, 62]] = .panic := by decide +kernel
example : byteFallbackChain ((encStr "é!".toList).map Unigram.byteToken) =
    .ok [encStr "é!".toList] := by decide +kernel

end Tok
