import Verif.Whole.ProcCut

/-!
# C138: the sections "truncation" and "padding" of a file
-/

namespace Tok.Whole

open Tok.PreTok Tok.Added Tok.Config

/-! ### Specification -/

/-- The section "truncation" leaves room for so many tokens of a text, if `k` special tokens are added; for any number of
tokens if there is no section. There must be room for more tokens than those by which the parts overlap. -/
inductive CutsTo : Option (List (Str × Val)) → Nat → Option Nat → Prop
  | none (k : Nat) : CutsTo none k none
  | some (cfg : List (Str × Val)) (L stride k : Nat) (st : TruncStrategy) : get cfg "max_length" = .float (L : Int) →
      get cfg "stride" = .float (stride : Int) → get cfg "strategy" = .str (strategyName st) → st ≠ .onlySecond →
      stride + k < L → CutsTo (some cfg) k (some (L - k))

/-- The section "padding" fills up with this token (and this id) on the right to this length; nothing is filled up if there is no
section, or if it says that the texts of a batch are to have the same length. -/
inductive FillsTo : Option (List (Str × Val)) → Option (Nat × Str × Int) → Prop
  | none : FillsTo none none
  | longest (cfg : List (Str × Val)) : get cfg "strategy" = .str "BatchLongest".toList →
      (get cfg "direction" = .str "Right".toList ∨ get cfg "direction" = .null) → FillsTo (some cfg) none
  | fixed (cfg : List (Str × Val)) (n : Nat) (tok : Str) (id : Int) :
      get cfg "strategy" = .obj [("Fixed".toList, .float (n : Int))] →
      (get cfg "direction" = .str "Right".toList ∨ get cfg "direction" = .null) → get cfg "pad_token" = .str tok →
      get cfg "pad_id" = .float id → FillsTo (some cfg) (some (n, tok, id))

/-- The beginning of a list, if there is a limit. -/
def limited : Option Nat → List α → List α
  | none, l => l
  | some m, l => l.take m

/-- A list, filled up if wanted. -/
def filledUp : Option (Nat × α) → List α → List α
  | none, l => l
  | some (n, x), l => l ++ List.replicate (n - l.length) x

/-! ### Lemmas -/

theorem limited_map (m : Option Nat) (f : α → β) (l : List α) : (limited m l).map f = limited m (l.map f) := by
  cases m <;> simp [limited]

theorem filledUp_length (o : Option (Nat × α)) (l : List α) :
    (filledUp o l).length = match o with | none => l.length | some p => max p.1 l.length := by
  cases o with
  | none => rfl
  | some p =>
    obtain ⟨n, x⟩ := p
    simp only [filledUp, List.length_append, List.length_replicate]
    omega

/-- Truncating what a tokenizer gives before post-processing. -/
theorem cut_truncate {o : Option (List (Str × Val))} {P : Option PostProcessor} {special : Bool} {k : Nat} {m : Option Nat}
    (h : CutsTo o k m) (hk : (if special then (match P with | none => 0 | some p => p.addedTokens false) else 0) = k)
    (rows : List Row) :
    ∃ tr e', createTruncation o = .ok tr ∧ postTruncate tr P (ofRows rows 0) none special = .ok (e', none) ∧ Usable e' ∧
      e'.ids = limited m (ofRows rows 0).ids ∧ e'.tokens = limited m (ofRows rows 0).tokens ∧
      e'.attentionMask = List.replicate e'.ids.length 1 := by
  cases h with
  | none => exact ⟨none, ofRows rows 0, rfl, rfl, (ofRows_delivered rows 0).usable, rfl, rfl, by simp [ofRows]⟩
  | some cfg L stride _ st h1 h2 h3 h4 h5 =>
    have ha := ofRows_aligned rows 0
    have hLs : ((L : Int) - k) = ((L - k : Nat) : Int) := by omega
    obtain ⟨e', g1, g2⟩ := truncateEncodings_single ha ((L : Int) - k) stride (by omega) (by omega) st h4
    obtain ⟨e₂, g3, g4⟩ := truncateMut_sliding ha rfl (L - k) stride (by omega)
    have g5 := CutTo.usable (ofRows_delivered rows 0) ((L : Int) - k) stride (by omega) (by omega) (by omega) g1
    rw [hLs, g3] at g1
    cases g1
    have hp := g4.plain (x := e') (by simp) .attentionMask
    have h0 : ∀ f, e'.arr f = ((ofRows rows 0).arr f).take (L - k) := by
      intro f
      have := g4.at' 0 e' rfl f
      simpa using this
    refine ⟨some ⟨L, st, stride⟩, e', C52_truncation_partial cfg L stride st h1 h2 h3, ?_, g5, h0 .ids, h0 .tokens, ?_⟩
    · have key : ∀ n : Int, (special = true → n = (k : Int)) → (if special = true ∧ n > 0 then
            truncateEncodings (ofRows rows 0) none ⟨(L : Int) - n, st, stride⟩
          else truncateEncodings (ofRows rows 0) none ⟨L, st, stride⟩) = .ok (e', none) := by
        intro n hkn
        by_cases hs : special = true ∧ n > 0
        · rw [if_pos hs, hkn hs.1]
          exact g2
        · rw [if_neg hs]
          have hk0 : (k : Int) = 0 := by
            cases special with
            | false => simp at hk; omega
            | true =>
              have := hkn rfl
              simp only [true_and] at hs
              omega
          rw [hk0, Int.sub_zero] at g2
          exact g2
      cases P with
      | none => exact key 0 (fun hs => by rw [if_pos hs] at hk; subst hk; rfl)
      | some P => exact key (P.addedTokens false) (fun hs => by rw [if_pos hs] at hk; subst hk; rfl)
    · simpa [plainArr, Encoding.arr] using hp.symm

/-- Padding the encoding of one text. -/
theorem fill_pad {o : Option (List (Str × Val))} {p : Option (Nat × Str × Int)} (h : FillsTo o p) (e : Encoding) :
    ∃ r, (match createPadding o with
      | none => (.ok (some e) : Res (Option Encoding))
      | some pp => do
        let padded ← padEncodings [e] pp
        match padded with
        | [] => .panic
        | a :: rest => do
          let r ← a.merge rest true
          .ok (some r)) = .ok (some r) ∧
      r.ids = e.ids ++ List.replicate ((p.map (·.1)).getD 0 - e.ids.length) ((p.map (·.2.2)).getD 0) ∧
      r.tokens = e.tokens ++ List.replicate ((p.map (·.1)).getD 0 - e.ids.length) ((p.map (·.2.1)).getD []) ∧
      r.attentionMask = e.attentionMask ++ List.replicate ((p.map (·.1)).getD 0 - e.ids.length) 0 := by
  have key : ∀ (pp : PadParams) (n : Int), pp.direction = .right →
      (pp.strategy = .fixed n ∨ pp.strategy = .batchLongest ∧ n = e.ids.length) →
      ∃ r, (do
        let padded ← padEncodings [e] pp
        match padded with
        | [] => .panic
        | a :: rest => do
          let r ← a.merge rest true
          .ok (some r) : Res (Option Encoding)) = .ok (some r) ∧ RightPadded n pp.padId pp.padTypeId pp.padToken e r := by
    intro pp n hd hn
    obtain ⟨r, k1, k2, _⟩ := C03_pad_right e n pp.padId pp.padTypeId pp.padToken
    refine ⟨r, ?_, k2⟩
    unfold padEncodings
    rw [if_neg (by simp)]
    have hmax : (maxLenLoop 0 [e] : Int) = e.ids.length := by
      simp only [maxLenLoop]
      by_cases h : e.ids.length > 0
      · rw [if_pos h]
      · rw [if_neg h]; omega
    rcases hn with hn | ⟨hn, rfl⟩
    · simp only [mapRes, hn, hd, k1, Res.bind_ok, Encoding.merge]
    · simp only [mapRes, hn, hd, hmax, k1, Res.bind_ok, Encoding.merge]
  cases h with
  | none => exact ⟨e, rfl, by simp, by simp, by simp⟩
  | longest cfg h1 h2 =>
    obtain ⟨pp, g1, _, g2, _, _, _, _, _, _, g3, _⟩ := C52_padding cfg
    obtain ⟨r, k1, k2, _⟩ := key pp e.ids.length (g3 h2) (.inr ⟨g2 h1, rfl⟩)
    refine ⟨r, by rw [g1]; exact k1, ?_, ?_, ?_⟩
    · have := k2 .ids; simpa [Encoding.arr] using this
    · have := k2 .tokens; simpa [Encoding.arr] using this
    · have := k2 .attentionMask; simpa [Encoding.arr] using this
  | fixed cfg n tok id h1 h2 h3 h4 =>
    obtain ⟨pp, g1, g2, _, _, _, _, _, _, _, g3, g4, _, _, _, g5, _⟩ := C52_padding cfg
    obtain ⟨r, k1, k2, _⟩ := key pp n (g3 h2) (.inl (g2 n h1))
    have hnat : ((n : Int) - (e.ids.length : Int)).toNat = n - e.ids.length := by omega
    refine ⟨r, by rw [g1]; exact k1, ?_, ?_, ?_⟩
    · have := k2 .ids; simpa [Encoding.arr, padEntry, hnat, g4 id h4] using this
    · have := k2 .tokens; simpa [Encoding.arr, padEntry, hnat, g5 tok h3] using this
    · have := k2 .attentionMask; simpa [Encoding.arr, padEntry, hnat] using this

/-- The post-processor of a file, for texts that were cut. -/
theorem surrounds_cut {o : Option (List (Str × Val))} {before after : List (Str × Int)} (h : Surrounds o before after) :
    ∃ pc, fromSection createProc o = .ok pc ∧
      (match pc.map procFn with | none => 0 | some p => p.addedTokens false) = before.length + after.length ∧
      ∀ (special : Bool) (e : Encoding), Usable e → ∃ r,
        (match pc.map procFn with
          | some p => p.process e none special
          | none => defaultProcess e none) = .ok (some r) ∧ Encloses (asked special before) (asked special after) e r := by
  rcases h with ⟨rfl, rfl, rfl⟩ | ⟨q, rfl, h⟩
  · refine ⟨none, rfl, rfl, fun special e _ => ⟨e, rfl, by cases special <;> exact encloses_none e⟩⟩
  · obtain ⟨c, h1, h2, h3⟩ := proc_cut h
    exact ⟨some c, fromSection_some (C70_postProcessor q _ h1), h2, h3⟩

/-- A file with other sections "truncation" and "padding". -/
theorem fromReader_length {E : FileEnv} {c : FileConfig} {b : Built}
    (h : fromReader E (some { c with truncation := none, padding := none }) = .ok b) {tr : Option TruncParams}
    (ht : createTruncation c.truncation = .ok tr) :
    fromReader E (some c) = .ok { b with tok := { b.tok with trunc := tr, padding := createPadding c.padding } } := by
  unfold fromReader at h
  obtain ⟨_, h1, h⟩ := Res.bind_eq_ok.mp h
  obtain ⟨_, h2, h⟩ := Res.bind_eq_ok.mp h
  obtain ⟨_, h3, h⟩ := Res.bind_eq_ok.mp h
  obtain ⟨_, h4, h⟩ := Res.bind_eq_ok.mp h
  obtain ⟨_, h5, h⟩ := Res.bind_eq_ok.mp h
  obtain ⟨_, h6, h⟩ := Res.bind_eq_ok.mp h
  obtain ⟨_, h7, h⟩ := Res.bind_eq_ok.mp h
  obtain ⟨_, h8, h⟩ := Res.bind_eq_ok.mp h
  obtain ⟨_, h9, h⟩ := Res.bind_eq_ok.mp h
  cases h
  exact fromReader_ok h1 h2 h3 h4 h5 h6 h7 h8 ht

/-! ### C138 -/

/-- C138: with the sections "truncation" and "padding" a tokenizer file gives, for one text, what it gives without them: cut
after so many tokens as there is room for beside the special tokens, with the special tokens around, and filled up with the token
for padding, which is masked. Partial: one text; padding on the right; an overlap for which there is room; the parts that are cut
off are not described. -/
theorem C138_length_partial (E : FileEnv) (c : FileConfig) (b : Built)
    (hb : fromReader E (some { c with truncation := none, padding := none }) = .ok b) (before after : List (Str × Int))
    (hproc : Surrounds c.postProcessor before after) (special : Bool) (m : Option Nat)
    (hcut : CutsTo c.truncation (if special then before.length + after.length else 0) m)
    (p : Option (Nat × Str × Int)) (hpad : FillsTo c.padding p) (A : List UInt8) (full : Encoding)
    (hf : b.tok.encodeSingle A [] = .ok (some full)) :
    ∃ b' r, fromReader E (some c) = .ok b' ∧ b'.state = b.state ∧ b'.tok.encodeSingle A [special] = .ok (some r) ∧
      r.ids = filledUp (p.map (fun p => (p.1, p.2.2)))
        ((if special then before.map (·.2) else []) ++ limited m full.ids ++ (if special then after.map (·.2) else [])) ∧
      r.tokens = filledUp (p.map (fun p => (p.1, p.2.1)))
        ((if special then before.map (·.1) else []) ++ limited m full.tokens ++ (if special then after.map (·.1) else [])) ∧
      r.attentionMask = filledUp (p.map (fun p => (p.1, 0)))
        (List.replicate ((if special then before.length + after.length else 0) + (limited m full.ids).length) 1) := by
  obtain ⟨rows, g1, g2⟩ := single_rows hb rfl rfl hproc hf
  obtain ⟨pc, h1, h2, h3, h4⟩ := file_post hb rfl rfl
  obtain ⟨pc', k1, k2, k3⟩ := surrounds_cut hproc
  have h1 : fromSection createProc c.postProcessor = .ok pc := h1
  rw [h1] at k1
  cases k1
  obtain ⟨tr, e', l1, l2, l3, l4, l5, l6⟩ := cut_truncate (P := pc.map procFn) (special := special) hcut (by
    cases special
    · rfl
    · simp only [if_true]; exact k2) rows
  obtain ⟨x, m1, ⟨m2, m3⟩, m4⟩ := k3 special e' l3
  obtain ⟨r, n1, n2, n3, n4⟩ := fill_pad hpad x
  have hfi : full.ids = (ofRows rows 0).ids := by simpa using g2.1
  have hft : full.tokens = (ofRows rows 0).tokens := by simpa using g2.2
  have hlen : x.tokens.length = x.ids.length := by
    have := l3.1 .tokens
    simp only [Encoding.arr] at this
    rw [m2, m3]
    simp [this]
  have hb1 : ∀ (l : List (Str × Int)), (asked special l).map (·.2) = if special then l.map (·.2) else [] := by
    intro l; cases special <;> rfl
  have hb2 : ∀ (l : List (Str × Int)), (asked special l).map (·.1) = if special then l.map (·.1) else [] := by
    intro l; cases special <;> rfl
  rw [hb1, hb1, l4, ← hfi] at m2
  rw [hb2, hb2, l5, ← hft] at m3
  have hmask := m4 l6
  refine ⟨_, r, fromReader_length hb l1, rfl, ?_, ?_, ?_, ?_⟩
  · rw [← n1]
    simp only [Tokenizer.encodeSingle, Tokenizer.encode, Tokenizer.encodeWith, List.headD_cons, g1, Res.bind_ok, h4, postProcess, l2]
    cases pc with
    | none =>
      have m1' : defaultProcess e' none = .ok (some x) := m1
      simp only [Option.map_none, m1', Res.bind_ok]
      cases createPadding c.padding <;> rfl
    | some pc =>
      have m1' : (procFn pc).process e' none special = .ok (some x) := m1
      simp only [Option.map_some, m1', Res.bind_ok]
      cases createPadding c.padding <;> rfl
  · rw [n2, m2]
    cases p <;> simp [filledUp]
  · rw [n3, ← hlen, m3]
    cases p <;> simp [filledUp]
  · rw [n4, hmask]
    have hx : x.ids.length = (if special then before.length + after.length else 0) + (limited m full.ids).length := by
      rw [m2]
      cases special
      · simp
      · simp only [if_true, List.length_append, List.length_map]; omega
    rw [hx]
    cases p <;> simp [filledUp]

/-- C138 is violated by the field "direction" of the section "truncation": where it says that the end of the text is to be kept,
the beginning is kept. -/
theorem C138_direction_violated (E : FileEnv) (c : FileConfig) (b : Built)
    (hb : fromReader E (some { c with truncation := none, padding := none }) = .ok b) (before after : List (Str × Int))
    (hproc : Surrounds c.postProcessor before after) (cfg : List (Str × Val)) (_ : c.truncation = some cfg)
    (_ : get cfg "direction" = .str "Left".toList) (m : Nat)
    (hcut : CutsTo c.truncation (before.length + after.length) (some m)) (hpad : c.padding = none) (A : List UInt8) (full : Encoding)
    (hf : b.tok.encodeSingle A [] = .ok (some full)) (hne : full.ids.take m ≠ full.ids.drop (full.ids.length - m)) :
    ∃ b' r, fromReader E (some c) = .ok b' ∧ b'.tok.encodeSingle A [true] = .ok (some r) ∧
      r.ids = before.map (·.2) ++ full.ids.take m ++ after.map (·.2) ∧
      r.ids ≠ before.map (·.2) ++ full.ids.drop (full.ids.length - m) ++ after.map (·.2) := by
  obtain ⟨b', r, h1, _, h2, h3, _⟩ := C138_length_partial E c b hb before after hproc true (some m) (by simpa using hcut) none
    (by rw [hpad]; exact .none) A full hf
  have h3 : r.ids = before.map (·.2) ++ full.ids.take m ++ after.map (·.2) := h3
  refine ⟨b', r, h1, h2, h3, ?_⟩
  rw [h3]
  intro h
  exact hne (List.append_cancel_left (List.append_cancel_right h))

/-- C138 is violated by padding on the left: a text that is to be filled up is not encoded. -/
theorem C138_left_violated (E : FileEnv) (c : FileConfig) (b : Built)
    (hb : fromReader E (some { c with truncation := none, padding := none }) = .ok b) (before after : List (Str × Int))
    (hproc : Surrounds c.postProcessor before after) (special : Bool) (m : Option Nat)
    (hcut : CutsTo c.truncation (if special then before.length + after.length else 0) m)
    (cfg : List (Str × Val)) (hpad : c.padding = some cfg) (n : Nat)
    (hfix : get cfg "strategy" = .obj [("Fixed".toList, .float (n : Int))]) (hleft : get cfg "direction" = .str "Left".toList)
    (A : List UInt8) (full : Encoding) (hf : b.tok.encodeSingle A [] = .ok (some full))
    (hn : (if special then before.length + after.length else 0) + (limited m full.ids).length < n)
    (h0 : 0 < (if special then before.length + after.length else 0) + (limited m full.ids).length) :
    ∃ b', fromReader E (some c) = .ok b' ∧ ∀ r, b'.tok.encodeSingle A [special] ≠ .ok r := by
  obtain ⟨rows, g1, g2⟩ := single_rows hb rfl rfl hproc hf
  obtain ⟨pc, h1, h2, h3, h4⟩ := file_post hb rfl rfl
  obtain ⟨pc', k1, k2, k3⟩ := surrounds_cut hproc
  have h1 : fromSection createProc c.postProcessor = .ok pc := h1
  rw [h1] at k1
  cases k1
  obtain ⟨tr, e', l1, l2, l3, l4, l5, l6⟩ := cut_truncate (P := pc.map procFn) (special := special) hcut (by
    cases special
    · rfl
    · simp only [if_true]; exact k2) rows
  obtain ⟨x, m1, ⟨m2, _⟩, _⟩ := k3 special e' l3
  have hfi : full.ids = (ofRows rows 0).ids := by simpa using g2.1
  have hx : x.ids.length = (if special then before.length + after.length else 0) + (limited m full.ids).length := by
    rw [m2, l4, ← hfi]
    cases special
    · simp [asked]
    · simp only [asked, if_true, List.length_append, List.length_map]; omega
  refine ⟨_, fromReader_length hb l1, fun r hr => ?_⟩
  obtain ⟨pp, q1, q2, _, _, _, _, _, _, q3, _⟩ := C52_padding cfg
  have key : ∀ padded, padEncodings [x] pp ≠ .ok padded := by
    intro padded p1
    unfold padEncodings at p1
    rw [if_neg (by simp)] at p1
    simp only [q2 n hfix, q3 hleft, mapRes] at p1
    obtain ⟨y, p2, _⟩ := Res.bind_eq_ok.mp p1
    unfold Encoding.pad at p2
    obtain ⟨over, _, p3⟩ := Res.bind_eq_ok.mp p2
    dsimp only at p3
    rw [if_neg (by omega)] at p3
    unfold Encoding.pad1 at p3
    dsimp only at p3
    rw [padLeft_panic _ _ _ _ _ (by
      intro h
      have h : x.ids = [] := h
      rw [h] at hx
      simp only [List.length_nil] at hx
      omega)] at p3
    cases p3
  simp only [Tokenizer.encodeSingle, Tokenizer.encode, Tokenizer.encodeWith, List.headD_cons, g1, Res.bind_ok, h4, postProcess, l2,
    hpad, q1] at hr
  cases pc with
  | none =>
    have m1' : defaultProcess e' none = .ok (some x) := m1
    simp only [Option.map_none, m1', Res.bind_ok] at hr
    obtain ⟨padded, p1, _⟩ := Res.bind_eq_ok.mp hr
    exact key padded p1
  | some pc =>
    have m1' : (procFn pc).process e' none special = .ok (some x) := m1
    simp only [Option.map_some, m1', Res.bind_ok] at hr
    obtain ⟨padded, p1, _⟩ := Res.bind_eq_ok.mp hr
    exact key padded p1

/-! ### A case -/

/-- Sections "truncation" and "padding". -/
def exampleTruncation : List (Str × Val) :=
  [("max_length".toList, .float 3), ("strategy".toList, .str "LongestFirst".toList), ("stride".toList, .float 0),
   ("direction".toList, .str "Left".toList)]

def examplePadding (direction : String) : List (Str × Val) :=
  [("strategy".toList, .obj [("Fixed".toList, .float 5)]), ("direction".toList, .str direction.toList), ("pad_id".toList, .float 9),
   ("pad_type_id".toList, .float 0), ("pad_token".toList, .str ['P'])]

theorem example_cuts : CutsTo (some exampleTruncation) 2 (some 1) :=
  .some exampleTruncation 3 0 2 .longestFirst (by rfl) (by rfl) (by rfl) (by decide) (by decide)

theorem example_fills : FillsTo (some (examplePadding "Right")) (some (5, ['P'], 9)) :=
  .fixed _ 5 ['P'] 9 (by rfl) (.inl (by rfl)) (by rfl) (by rfl)

theorem exampleRoberta_adds : Surrounds (some exampleRoberta) [(['<', 's', '>'], 257)] [(['<', '/', 's', '>'], 258)] :=
  .inr ⟨_, rfl, .one _ _ _ (.plain _ _ _ (.roberta exampleRoberta (['<', 's', '>'], 257) (['<', '/', 's', '>'], 258) false
    (by unfold TypeIs; rfl) (by unfold TokenIs; rfl) (by unfold TokenIs; rfl) (by rfl) (by rfl)))⟩

/-- With these sections the RoBERTa file gives five entries for "he": `<s>`, one token, `</s>` and two for padding, which are
masked; with padding on the left it gives nothing. -/
example (E : FileEnv) (hL : E.isL ' ' = false) (hN : E.isN ' ' = false) (ho : ∀ l, (E.order l).Perm l) :
    ∃ b full, fromReader E (some (examplePairFile exampleRoberta)) = .ok b ∧
      b.tok.encodeSingle (encStr ['h', 'e']) [] = .ok (some full) ∧
      (∃ b' r, fromReader E (some { examplePairFile exampleRoberta with
            truncation := some exampleTruncation, padding := some (examplePadding "Right") }) = .ok b' ∧
          b'.tok.encodeSingle (encStr ['h', 'e']) [true] = .ok (some r) ∧
          r.ids = filledUp (some (5, 9)) ([257] ++ full.ids.take 1 ++ [258])) ∧
      ∃ b', fromReader E (some { examplePairFile exampleRoberta with
            truncation := some exampleTruncation, padding := some (examplePadding "Left") }) = .ok b' ∧
        ∀ r, b'.tok.encodeSingle (encStr ['h', 'e']) [true] ≠ .ok r := by
  obtain ⟨b, full, h1, h2⟩ := examplePair_file E hL hN ho exampleRoberta _ _ exampleRoberta_adds
  refine ⟨b, full, h1, h2, ?_, ?_⟩
  · obtain ⟨b', r, k1, _, k2, k3, _⟩ := C138_length_partial E { examplePairFile exampleRoberta with
      truncation := some exampleTruncation, padding := some (examplePadding "Right") } b h1 _ _ exampleRoberta_adds true _ example_cuts _
      example_fills _ full h2
    exact ⟨b', r, k1, k2, k3⟩
  · refine C138_left_violated E { examplePairFile exampleRoberta with
      truncation := some exampleTruncation, padding := some (examplePadding "Left") } b h1 _ _ exampleRoberta_adds true _ example_cuts _ rfl
      5 (by rfl) (by rfl) _ full h2 ?_ ?_
    · simp only [if_true, limited, List.length_cons, List.length_nil, List.length_take]; omega
    · simp only [if_true, limited, List.length_cons, List.length_nil, List.length_take]; omega

end Tok.Whole
