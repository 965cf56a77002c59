import Verif.Processor.Model
import Verif.Encoding.PropsMerge
import Verif.Encoding.PropsBudget

/-!
# C22, C23, C28: BERT and RoBERTa post-processing, offset trimming
-/

namespace Tok

/-! ### Specification -/

/-- The entry of a special token in each array. -/
def specialEntry (t : PostToken) (typeId : Int) : (f : Field) → f.Ty
  | .ids => t.id
  | .typeIds => typeId
  | .tokens => t.value
  | .offsets => (0, 0)
  | .specialMask => 1
  | .attentionMask => 1
  | .words => -1

/-- The arrays of an encoding with all its tokens marked as ordinary (special
mask 0) and attended to (attention 1). -/
def plainArr (e : Encoding) : (f : Field) → List f.Ty
  | .specialMask => List.replicate e.ids.length 0
  | .attentionMask => List.replicate e.ids.length 1
  | f => e.arr f

/-- `[CLS] A [SEP]`. -/
def bertSingle (bp : Bert) (e : Encoding) (f : Field) : List f.Ty :=
  [specialEntry bp.cls 0 f] ++ plainArr e f ++ [specialEntry bp.sep 0 f]

/-- `B [SEP]`, the closing separator having type 1. -/
def bertPair (bp : Bert) (e : Encoding) (f : Field) : List f.Ty :=
  plainArr e f ++ [specialEntry bp.sep 1 f]

/-! ### BERT -/

theorem bert_single_arr (bp : Bert) (e : Encoding) (f : Field) :
    (bp.addSpecialToken e).arr f = bertSingle bp e f := by
  cases f <;> simp [Bert.addSpecialToken, bertSingle, plainArr, specialEntry, Encoding.arr,
    newEncoding]
  simp only [List.replicate_succ]
  rw [← List.replicate_succ' , ← List.replicate_succ]

theorem bert_pair_arr (bp : Bert) (e : Encoding) (f : Field) :
    (bp.pairAddSpecialToken e).arr f = bertPair bp e f := by
  cases f <;> simp [Bert.pairAddSpecialToken, bertPair, plainArr, specialEntry, Encoding.arr,
    newEncoding]

theorem merge_plain_arr {a b r : Encoding} (hr : a.mergeWith b false = .ok r) (f : Field) :
    r.arr f = a.arr f ++ b.arr f := by
  obtain ⟨c1, c2⟩ := C06_merge_concat_of_ok _ _ _ _ hr
  by_cases hf : f = .offsets
  · subst hf
    simp only [Encoding.arr]
    rw [c2]
    congr 1
    have : shiftBy (mergeShift a false) = id := by
      funext o; simp [mergeShift, shiftBy]
    rw [this, List.map_id]
  · exact c1 f hf

theorem rangesOk_leaf (e : Encoding) (h : e.ranges = some []) (ho : e.overflowing = []) :
    RangesOk e := .mk e [] h (by simp) (by simp [ho])

theorem rangesOk_node (e : Encoding) (h : e.ranges = some [])
    (ho : ∀ o ∈ e.overflowing, RangesOk o) : RangesOk e := .mk e [] h (by simp) ho

/-- The common shape of the BERT and RoBERTa pair case: decorate both encodings
and their overflowing parts (`fa`, `fb`), then merge. -/
theorem decorated_merge (fa fb : Encoding → Encoding)
    (sa sb : Encoding → (f : Field) → List f.Ty)
    (ha : ∀ e f, (fa e).arr f = sa e f) (hb : ∀ e f, (fb e).arr f = sb e f)
    (ra : ∀ e, (fa e).ranges = some [] ∧ (fa e).overflowing = [])
    (rb : ∀ e, (fb e).ranges = some [] ∧ (fb e).overflowing = []) (e p : Encoding) :
    ∃ r, ({ fa e with overflowing := e.overflowing.map fa } : Encoding).mergeWith
        { fb p with overflowing := p.overflowing.map fb } false = .ok r ∧
      (∀ f : Field, r.arr f = sa e f ++ sb p f) ∧
      r.overflowing.length = e.overflowing.length * (p.overflowing.length + 1)
        + p.overflowing.length ∧
      (∀ o ∈ r.overflowing, ∃ x y : Encoding, (x = e ∨ x ∈ e.overflowing) ∧
        (y = p ∨ y ∈ p.overflowing) ∧ ∀ f : Field, o.arr f = sa x f ++ sb y f) := by
  have h1 : RangesOk { fa e with overflowing := e.overflowing.map fa } := by
    refine rangesOk_node _ (ra e).1 ?_
    intro o ho
    simp only [List.mem_map] at ho
    obtain ⟨x, -, rfl⟩ := ho
    exact rangesOk_leaf _ (ra x).1 (ra x).2
  have h2 : RangesOk { fb p with overflowing := p.overflowing.map fb } := by
    refine rangesOk_node _ (rb p).1 ?_
    intro o ho
    simp only [List.mem_map] at ho
    obtain ⟨x, -, rfl⟩ := ho
    exact rangesOk_leaf _ (rb x).1 (rb x).2
  obtain ⟨r, hr⟩ := mergeWith_isOk h1 h2 false
  have selfL : ∀ f, ({ fa e with overflowing := e.overflowing.map fa } : Encoding).arr f
      = sa e f := by intro f; rw [← ha]
  have selfR : ∀ f, ({ fb p with overflowing := p.overflowing.map fb } : Encoding).arr f
      = sb p f := by intro f; rw [← hb]
  refine ⟨r, hr, ?_, ?_, ?_⟩
  · intro f
    rw [merge_plain_arr hr f, selfL, selfR]
  · rw [C07_merge_overflow_count _ _ _ _ hr]
    simp
  · intro o ho
    obtain ⟨⟨x, y⟩, hxy, hm⟩ := forall₂_mem_right (C07_merge_overflow _ _ _ _ hr) ho
    simp only at hm
    have memL : ∀ z ∈ e.overflowing.map fa,
        ∃ x', (x' = e ∨ x' ∈ e.overflowing) ∧ ∀ f, z.arr f = sa x' f := by
      intro z hz
      obtain ⟨x', hx', rfl⟩ := List.mem_map.1 hz
      exact ⟨x', Or.inr hx', ha x'⟩
    have memR : ∀ z ∈ p.overflowing.map fb,
        ∃ y', (y' = p ∨ y' ∈ p.overflowing) ∧ ∀ f, z.arr f = sb y' f := by
      intro z hz
      obtain ⟨x', hx', rfl⟩ := List.mem_map.1 hz
      exact ⟨x', Or.inr hx', hb x'⟩
    have hxe : (∃ x', (x' = e ∨ x' ∈ e.overflowing) ∧ ∀ f, x.arr f = sa x' f) ∧
        (∃ y', (y' = p ∨ y' ∈ p.overflowing) ∧ ∀ f, y.arr f = sb y' f) := by
      unfold overflowPairs at hxy
      rw [List.mem_append] at hxy
      rcases hxy with hxy | hxy
      · rw [List.mem_flatMap] at hxy
        obtain ⟨z, hz, hxy⟩ := hxy
        rcases List.mem_cons.1 hxy with h | h
        · cases h
          exact ⟨memL _ hz, p, Or.inl rfl, selfR⟩
        · obtain ⟨w, hw, h⟩ := List.mem_map.1 h
          cases h
          exact ⟨memL _ hz, memR _ hw⟩
      · obtain ⟨w, hw, h⟩ := List.mem_map.1 hxy
        cases h
        exact ⟨⟨e, Or.inl rfl, selfL⟩, memR _ hw⟩
    obtain ⟨⟨x', hx', hxf⟩, ⟨y', hy', hyf⟩⟩ := hxe
    exact ⟨x', y', hx', hy', fun f => by rw [merge_plain_arr hm f, hxf, hyf]⟩

/-- C22, single sequence: `[CLS] A [SEP]` in every array, for the encoding and
for each overflowing part, and never a failure. -/
theorem C22_bert_single (bp : Bert) (e : Encoding) :
    ∃ r, bp.process e none true = .ok (some r) ∧
      (∀ f : Field, r.arr f = bertSingle bp e f) ∧
      List.Forall₂ (fun o o' : Encoding => ∀ f : Field, o'.arr f = bertSingle bp o f)
        e.overflowing r.overflowing ∧
      r.ids.length = e.ids.length + bp.addedTokens false := by
  refine ⟨_, rfl, ?_, ?_, ?_⟩
  · intro f
    rw [← bert_single_arr]
  · simp only
    generalize e.overflowing = l
    induction l with
    | nil => exact .nil
    | cons o l ih => exact .cons (bert_single_arr bp o) ih
  · simp [Bert.addSpecialToken, newEncoding, Bert.addedTokens]

/-- C22, pair: `[CLS] A [SEP] B [SEP]` in every array; the overflowing parts are
the merges of all window pairs, each window carrying its special tokens. -/
theorem C22_bert_pair (bp : Bert) (e p : Encoding) :
    ∃ r, bp.process e (some p) true = .ok (some r) ∧
      (∀ f : Field, r.arr f = bertSingle bp e f ++ bertPair bp p f) ∧
      r.overflowing.length = e.overflowing.length * (p.overflowing.length + 1)
        + p.overflowing.length ∧
      (∀ o ∈ r.overflowing, ∃ x y : Encoding, (x = e ∨ x ∈ e.overflowing) ∧
        (y = p ∨ y ∈ p.overflowing) ∧
        ∀ f : Field, o.arr f = bertSingle bp x f ++ bertPair bp y f) ∧
      r.ids.length = e.ids.length + p.ids.length + bp.addedTokens true := by
  obtain ⟨r, hr, h1, h2, h3⟩ := decorated_merge bp.addSpecialToken bp.pairAddSpecialToken
    (bertSingle bp) (bertPair bp) (bert_single_arr bp) (bert_pair_arr bp)
    (fun _ => ⟨rfl, rfl⟩) (fun _ => ⟨rfl, rfl⟩) e p
  refine ⟨r, ?_, h1, h2, h3, ?_⟩
  · unfold Bert.process
    simp only [Bool.not_true, Bool.false_eq_true, if_false]
    rw [hr]; rfl
  · have := congrArg List.length (h1 .ids)
    simp only [Encoding.arr, bertSingle, bertPair, plainArr, List.length_append,
      List.length_cons, List.length_nil] at this
    rw [this]
    simp [Bert.addedTokens]; omega

/-- C22, no special tokens: the encoding itself, or `A` followed by `B`. -/
theorem C22_bert_plain (bp : Bert) (e : Encoding) :
    bp.process e none false = .ok (some e) ∧
    ∀ p, RangesOk e → RangesOk p → ∃ r, bp.process e (some p) false = .ok (some r) ∧
      ∀ f : Field, r.arr f = e.arr f ++ p.arr f := by
  refine ⟨rfl, ?_⟩
  intro p he hp
  obtain ⟨r, hr⟩ := mergeWith_isOk he hp false
  refine ⟨r, ?_, ?_⟩
  · unfold Bert.process defaultProcess
    simp only [Bool.not_false, if_true]
    rw [hr]; rfl
  · exact merge_plain_arr hr

/-- The mask is 1 exactly on the special positions. -/
example : ∀ r, (⟨⟨['S'], 102⟩, ⟨['C'], 101⟩⟩ : Bert).process sampleEnc none true = .ok (some r) →
    r.specialMask = [1, 0, 0, 0, 0, 0, 1] ∧ r.ids = [101, 1, 2, 3, 4, 5, 102] := by
  intro r h; cases h; exact ⟨rfl, rfl⟩

/-! ### C28 -/

theorem trimLoop_ok (offsets : List (Int × Int)) (aps : Bool) (i : Nat) (toks : List Str)
    (h : i + toks.length ≤ offsets.length) :
    ∃ out, trimLoop offsets aps i toks = .ok out ∧ out.length = toks.length ∧
      ∀ (j : Nat) (tok : Str) (o : Int × Int), toks[j]? = some tok → offsets[i + j]? = some o →
        out[j]? = some (trimOffset (i + j) aps (leadingSpaces tok) (trailingSpaces tok) o) := by
  induction toks generalizing i with
  | nil => exact ⟨[], rfl, rfl, by simp⟩
  | cons tok toks ih =>
    obtain ⟨out, h1, h2, h3⟩ := ih (i + 1) (by simp at h; omega)
    have hi : i < offsets.length := by simp at h; omega
    unfold trimLoop idx
    rw [if_neg (by omega)]
    simp only [Int.toNat_natCast]
    rw [List.getElem?_eq_getElem hi]
    simp only [Res.bind_ok, h1]
    refine ⟨_, rfl, by simp [h2], ?_⟩
    intro j t o hj ho
    cases j with
    | zero =>
      simp only [List.getElem?_cons_zero, Option.some.injEq] at hj
      subst hj
      rw [Nat.add_zero, List.getElem?_eq_getElem hi] at ho
      cases ho
      simp
    | succ j =>
      simp only [List.getElem?_cons_succ] at hj ⊢
      have := h3 j t o hj (by rw [← ho]; congr 1; omega)
      rw [this]
      congr 2; omega

/-- The token has no space marker at either end. -/
def NoSpaceMarker (tok : Str) : Prop := tok.head? ≠ some 'Ġ' ∧ tok.getLast? ≠ some 'Ġ'

theorem leadingSpaces_zero {tok : Str} (h : tok.head? ≠ some 'Ġ') : leadingSpaces tok = 0 := by
  cases tok with
  | nil => rfl
  | cons c cs =>
    unfold leadingSpaces
    rw [if_pos (by simpa using h)]

theorem trimOffset_none (i : Nat) (aps : Bool) (o : Int × Int) : trimOffset i aps 0 0 o = o := by
  simp [trimOffset]

theorem trimOffset_inside (i : Nat) (aps : Bool) (lead trail : Nat) (o : Int × Int)
    (h : o.1 ≤ o.2) : o.1 ≤ (trimOffset i aps lead trail o).1 ∧
      (trimOffset i aps lead trail o).1 ≤ (trimOffset i aps lead trail o).2 ∧
      (trimOffset i aps lead trail o).2 ≤ o.2 := by
  unfold trimOffset
  dsimp only
  repeat' split
  all_goals omega

/-- What trimming does to the offsets of token number `i`: the start moves right
by the number of leading markers (not for the one marker of an added prefix
space), the end moves left by the number of trailing markers (if it is large
enough), both staying inside the token. -/
theorem trimOffset_exact (i : Nat) (aps : Bool) (lead trail : Nat) (o : Int × Int)
    (h : o.1 ≤ o.2) :
    (trimOffset i aps lead trail o).1
      = min (o.1 + (if i = 0 ∧ aps = true ∧ lead = 1 then 0 else lead)) o.2 ∧
    (trimOffset i aps lead trail o).2
      = (if (trail : Int) ≤ o.2 then max (o.2 - trail) (trimOffset i aps lead trail o).1
         else o.2) := by
  unfold trimOffset
  dsimp only
  constructor
  · repeat' split
    all_goals omega
  · repeat' split
    all_goals omega

/-- C28.  On an aligned encoding trimming never fails and changes only offsets;
each span stays inside the old one, spans of tokens without markers do not
change. -/
theorem C28_trim_inside (e : Encoding) (ha : e.Aligned) (aps : Bool) :
    ∃ e', processOffsets e aps = .ok e' ∧
      (∀ f : Field, f ≠ .offsets → e'.arr f = e.arr f) ∧
      e'.overflowing = e.overflowing ∧ e'.ranges = e.ranges ∧
      e'.offsets.length = e.offsets.length ∧
      ∀ (i : Nat) (tok : Str) (o : Int × Int), e.tokens[i]? = some tok →
        e.offsets[i]? = some o → o.1 ≤ o.2 →
        ∃ o', e'.offsets[i]? = some o' ∧ o.1 ≤ o'.1 ∧ o'.1 ≤ o'.2 ∧ o'.2 ≤ o.2 ∧
          (NoSpaceMarker tok → o' = o) := by
  have h1 := ha .tokens; have h2 := ha .offsets
  simp only [Encoding.arr] at h1 h2
  obtain ⟨out, h3, h4, h5⟩ := trimLoop_ok e.offsets aps 0 e.tokens (by omega)
  unfold processOffsets
  rw [h3]
  refine ⟨_, rfl, ?_, rfl, rfl, ?_, ?_⟩
  · intro f hf; cases f <;> first | rfl | exact absurd rfl hf
  · simp only; omega
  · intro i tok o ht ho hle
    have := h5 i tok o ht (by simpa using ho)
    refine ⟨_, by simpa using this, ?_⟩
    obtain ⟨g1, g2, g3⟩ := trimOffset_inside (0 + i) aps (leadingSpaces tok) (trailingSpaces tok)
      o hle
    simp only [Nat.zero_add] at g1 g2 g3 ⊢
    refine ⟨g1, g2, g3, ?_⟩
    rintro ⟨m1, m2⟩
    rw [leadingSpaces_zero m1, trailingSpaces, leadingSpaces_zero (by simpa using m2),
      trimOffset_none]

/-- C28, exactly: what each span becomes. -/
theorem C28_trim_exact (e : Encoding) (ha : e.Aligned) (aps : Bool) (e' : Encoding)
    (he : processOffsets e aps = .ok e') (i : Nat) (pre core post : Nat) (mid : Str)
    (o : Int × Int) (hmid : NoSpaceMarker mid) (hne : mid ≠ [])
    (htok : e.tokens[i]? = some (List.replicate pre 'Ġ' ++ mid ++ List.replicate post 'Ġ'))
    (ho : e.offsets[i]? = some o) (hle : o.1 + pre + core + post = o.2) (h0 : 0 ≤ o.1)
    (hfirst : i ≠ 0 ∨ aps = false) :
    e'.offsets[i]? = some (o.1 + pre, o.2 - post) := by
  have h1 := ha .tokens; have h2 := ha .offsets
  simp only [Encoding.arr] at h1 h2
  obtain ⟨out, h3, h4, h5⟩ := trimLoop_ok e.offsets aps 0 e.tokens (by omega)
  unfold processOffsets at he
  rw [h3] at he
  cases he
  have lead : ∀ (n : Nat) (x y : Str), x.head? ≠ some 'Ġ' → x ≠ [] →
      leadingSpaces (List.replicate n 'Ġ' ++ (x ++ y)) = n := by
    intro n x y hx hxne
    induction n with
    | zero =>
      rw [List.replicate_zero, List.nil_append]
      apply leadingSpaces_zero
      cases x with
      | nil => exact absurd rfl hxne
      | cons c cs => simpa using hx
    | succ n ih =>
      rw [List.replicate_succ, List.cons_append, leadingSpaces, if_neg (by simp), ih]
  have hl := lead pre mid (List.replicate post 'Ġ') hmid.1 hne
  have ht : trailingSpaces (List.replicate pre 'Ġ' ++ mid ++ List.replicate post 'Ġ') = post := by
    unfold trailingSpaces
    rw [List.reverse_append, List.reverse_append, List.reverse_replicate, List.reverse_replicate]
    exact lead post mid.reverse _ (by simpa using hmid.2) (by simpa using hne)
  have := h5 i _ o htok (by simpa using ho)
  simp only [Nat.zero_add] at this
  simp only
  rw [this, ht]
  rw [List.append_assoc, hl]
  obtain ⟨g1, g2⟩ := trimOffset_exact i aps pre post o (by omega)
  have hc : ¬ (i = 0 ∧ aps = true ∧ pre = 1) := by
    rintro ⟨c1, c2, -⟩
    rcases hfirst with h | h
    · exact h c1
    · rw [h] at c2; cases c2
  rw [if_neg hc] at g1
  rw [if_pos (by omega)] at g2
  congr 1
  ext
  · rw [g1]; simp only; omega
  · rw [g2, g1]; simp only; omega

example : (processOffsets { sampleEnc with
    tokens := [['Ġ', 'a'], ['Ġ', 'b', 'Ġ'], ['c'], ['d'], ['e']],
    offsets := [(0, 2), (2, 5), (5, 6), (6, 7), (7, 8)] } true).bind (fun e => .ok e.offsets)
    = .ok [(0, 2), (3, 4), (5, 6), (6, 7), (7, 8)] := by rfl

/-! ### RoBERTa -/

/-- `<s> A </s>`. -/
def robertaSingle (rp : Roberta) (e : Encoding) (f : Field) : List f.Ty :=
  [specialEntry rp.cls 0 f] ++ plainArr e f ++ [specialEntry rp.sep 0 f]

/-- `</s> B </s>`. -/
def robertaPair (rp : Roberta) (e : Encoding) (f : Field) : List f.Ty :=
  [specialEntry rp.sep 1 f] ++ plainArr e f ++ [specialEntry rp.sep 1 f]

/-- `e'` is `e` with trimmed offsets, as is every overflowing part. -/
def Trimmed (aps : Bool) (e e' : Encoding) : Prop :=
  (∃ d, processOffsets e aps = .ok d ∧ e' = { d with overflowing := e'.overflowing }) ∧
  List.Forall₂ (fun o o' => processOffsets o aps = .ok o') e.overflowing e'.overflowing

theorem processOffsetsDeep_ok (e : Encoding) (aps : Bool) (ha : e.Aligned)
    (ho : ∀ o ∈ e.overflowing, o.Aligned) :
    ∃ e', processOffsetsDeep e aps = .ok e' ∧ Trimmed aps e e' := by
  obtain ⟨d, h1, h2, h3, -⟩ := C28_trim_inside e ha aps
  unfold processOffsetsDeep
  rw [h1]
  simp only [Res.bind_ok]
  obtain ⟨over, hover⟩ := mapRes_isOk (fun o => processOffsets o aps) d.overflowing (by
    intro o hod
    rw [h3] at hod
    exact (C28_trim_inside o (ho o hod) aps).imp (fun _ h => h.1))
  rw [hover]
  refine ⟨_, rfl, ⟨d, h1, rfl⟩, ?_⟩
  rw [← h3]
  exact mapRes_eq_ok.1 hover

theorem processOffsets_aligned {e d : Encoding} {aps : Bool} (ha : e.Aligned)
    (h : processOffsets e aps = .ok d) : d.Aligned := by
  obtain ⟨d', h1, h2, -, -, h5, -⟩ := C28_trim_inside e ha aps
  rw [h] at h1; cases h1
  intro f
  have hi := h2 .ids (by simp)
  simp only [Encoding.arr] at hi
  rw [hi]
  by_cases hf : f = .offsets
  · subst hf; exact h5.trans (ha .offsets)
  · rw [h2 f hf]; exact ha f

theorem Trimmed.aligned {e e' : Encoding} {aps : Bool} (ha : e.Aligned)
    (ho : ∀ o ∈ e.overflowing, o.Aligned) (h : Trimmed aps e e') :
    e'.Aligned ∧ ∀ o ∈ e'.overflowing, o.Aligned := by
  obtain ⟨⟨d, h1, h2⟩, h3⟩ := h
  have := processOffsets_aligned ha h1
  constructor
  · intro f
    have := this f
    rw [h2]
    cases f <;> exact this
  · intro o hoe
    obtain ⟨x, hx, h4⟩ := forall₂_mem_right h3 hoe
    exact processOffsets_aligned (ho x hx) h4

theorem Trimmed.length {e e' : Encoding} {aps : Bool} (h : Trimmed aps e e') :
    e'.ids = e.ids ∧ e'.tokens = e.tokens := by
  obtain ⟨⟨d, h1, h2⟩, -⟩ := h
  unfold processOffsets at h1
  rw [Res.bind_eq_ok] at h1
  obtain ⟨o, -, h1⟩ := h1
  cases h1
  rw [h2]
  exact ⟨rfl, rfl⟩

theorem roberta_single_arr (rp : Roberta) (e : Encoding) (ha : e.Aligned) (f : Field) :
    (rp.addSpecialToken e).arr f = robertaSingle rp e f := by
  have h1 := ha .specialMask; have h2 := ha .attentionMask
  simp only [Encoding.arr] at h1 h2
  cases f <;> simp [Roberta.addSpecialToken, robertaSingle, plainArr, specialEntry, Encoding.arr,
    newEncoding, h1, h2]

theorem roberta_pair_arr (rp : Roberta) (e : Encoding) (ha : e.Aligned) (f : Field) :
    (rp.pairAddSpecialToken e).arr f = robertaPair rp e f := by
  have h1 := ha .specialMask; have h2 := ha .attentionMask
  simp only [Encoding.arr] at h1 h2
  cases f <;> simp [Roberta.pairAddSpecialToken, robertaPair, plainArr, specialEntry, Encoding.arr,
    newEncoding, h1, h2]

/-- C23 is violated by every configuration with `trimOffsets` off, for every
input: with special tokens `Process` dereferences nil, without them it returns
nil. -/
theorem C23_roberta_violated (rp : Roberta) (h : rp.trimOffsets = false) (e : Encoding)
    (p : Option Encoding) :
    rp.process e p true = .panic ∧ rp.process e p false = .ok none := by
  unfold Roberta.process
  rw [h]
  exact ⟨rfl, rfl⟩

/-- C23, partial (only with `trimOffsets` on), single sequence: `<s> A </s>`
with trimmed offsets. -/
theorem C23_roberta_single_partial (rp : Roberta) (h : rp.trimOffsets = true) (e : Encoding)
    (ha : e.Aligned) (ho : ∀ o ∈ e.overflowing, o.Aligned) :
    ∃ t r, Trimmed rp.addPrefixSpace e t ∧ rp.process e none true = .ok (some r) ∧
      (∀ f : Field, r.arr f = robertaSingle rp t f) ∧
      List.Forall₂ (fun o o' : Encoding => ∀ f : Field, o'.arr f = robertaSingle rp o f)
        t.overflowing r.overflowing ∧
      r.ids.length = e.ids.length + rp.addedTokens false := by
  obtain ⟨t, h1, h2⟩ := processOffsetsDeep_ok e rp.addPrefixSpace ha ho
  obtain ⟨ht, hto⟩ := h2.aligned ha ho
  unfold Roberta.process
  simp only [h, if_true, h1, Res.bind_ok, optMapRes, Bool.not_true, Bool.false_eq_true, if_false]
  refine ⟨t, _, h2, rfl, ?_, ?_, ?_⟩
  · intro f; rw [← roberta_single_arr rp t ht]
  · simp only
    generalize t.overflowing = l at hto
    induction l with
    | nil => exact .nil
    | cons o l ih =>
      exact .cons (roberta_single_arr rp o (hto o (by simp))) (ih (fun x hx => hto x (by simp [hx])))
  · simp [Roberta.addSpecialToken, newEncoding, Roberta.addedTokens, h2.length.1]

/-- C23, partial (only with `trimOffsets` on), pair: `<s> A </s></s> B </s>`. -/
theorem C23_roberta_pair_partial (rp : Roberta) (h : rp.trimOffsets = true) (e p : Encoding)
    (ha : e.Aligned) (ho : ∀ o ∈ e.overflowing, o.Aligned)
    (hpa : p.Aligned) (hpo : ∀ o ∈ p.overflowing, o.Aligned) :
    ∃ t u r, Trimmed rp.addPrefixSpace e t ∧ Trimmed rp.addPrefixSpace p u ∧
      rp.process e (some p) true = .ok (some r) ∧
      (∀ f : Field, r.arr f = robertaSingle rp t f ++ robertaPair rp u f) ∧
      r.ids.length = e.ids.length + p.ids.length + rp.addedTokens true := by
  obtain ⟨t, h1, h2⟩ := processOffsetsDeep_ok e rp.addPrefixSpace ha ho
  obtain ⟨ht, hto⟩ := h2.aligned ha ho
  obtain ⟨u, h3, h4⟩ := processOffsetsDeep_ok p rp.addPrefixSpace hpa hpo
  obtain ⟨hu, huo⟩ := h4.aligned hpa hpo
  obtain ⟨r, hr, -⟩ := decorated_merge rp.addSpecialToken rp.pairAddSpecialToken
    (fun e f => (rp.addSpecialToken e).arr f) (fun e f => (rp.pairAddSpecialToken e).arr f)
    (fun _ _ => rfl) (fun _ _ => rfl) (fun _ => ⟨rfl, rfl⟩) (fun _ => ⟨rfl, rfl⟩) t u
  have hA : ∀ f : Field, r.arr f = robertaSingle rp t f ++ robertaPair rp u f := by
    intro f
    rw [merge_plain_arr hr f, ← roberta_single_arr rp t ht, ← roberta_pair_arr rp u hu]
  unfold Roberta.process
  simp only [h, if_true, h1, h3, Res.bind_ok, optMapRes, Bool.not_true, Bool.false_eq_true,
    if_false]
  refine ⟨t, u, r, h2, h4, by rw [hr]; rfl, hA, ?_⟩
  have := congrArg List.length (hA .ids)
  simp only [Encoding.arr, robertaSingle, robertaPair, plainArr, List.length_append,
    List.length_cons, List.length_nil] at this
  rw [this, h2.length.1, h4.length.1]
  simp [Roberta.addedTokens]; omega

/-- C23, partial (only with `trimOffsets` on), no special tokens: the trimmed
sequences, concatenated. -/
theorem C23_roberta_plain_partial (rp : Roberta) (h : rp.trimOffsets = true) (e : Encoding)
    (ha : e.Aligned) (ho : ∀ o ∈ e.overflowing, o.Aligned) :
    ∃ t, Trimmed rp.addPrefixSpace e t ∧ rp.process e none false = .ok (some t) ∧
      ∀ p r, p.Aligned → (∀ o ∈ p.overflowing, o.Aligned) →
        rp.process e (some p) false = .ok (some r) →
        ∃ u, Trimmed rp.addPrefixSpace p u ∧ ∀ f : Field, r.arr f = t.arr f ++ u.arr f := by
  obtain ⟨t, h1, h2⟩ := processOffsetsDeep_ok e rp.addPrefixSpace ha ho
  refine ⟨t, h2, ?_, ?_⟩
  · unfold Roberta.process
    simp [h, h1, optMapRes, defaultProcess]
  · intro p r hpa hpo hr
    obtain ⟨u, h3, h4⟩ := processOffsetsDeep_ok p rp.addPrefixSpace hpa hpo
    refine ⟨u, h4, ?_⟩
    unfold Roberta.process at hr
    simp only [h, if_true, h1, h3, Res.bind_ok, optMapRes, Bool.not_false, defaultProcess] at hr
    rw [Res.bind_eq_ok] at hr
    obtain ⟨r', hr', hr⟩ := hr
    cases hr
    exact merge_plain_arr hr'

example : sampleEnc.Aligned ∧ ∀ o ∈ sampleEnc.overflowing, o.Aligned :=
  ⟨sampleEnc_aligned, by simp [sampleEnc]⟩

end Tok
