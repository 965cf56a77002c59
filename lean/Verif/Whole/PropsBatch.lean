import Verif.Whole.Props
import Verif.Concurrency.PropsEncodeBatch

/-!
# C99: batches
-/

namespace Tok.Whole

open Tok.Norm Tok.PreTok

/-! ### Specification -/

/-- What the goroutine of input `i` gets from `Encode` (tokenizer.go:649-656); `none` stands for an error. -/
def batchEnc (t : Tokenizer) (inputs : List EncodeInput) (special : Bool) (i : Nat) : Option Encoding :=
  match inputs[i]? with
  | none => none
  | some x =>
    match t.encode x special with
    | .ok (some e) => some e
    | _ => none

/-- `e'` is `e` with pad entries after it, up to `n` entries, and so are the overflowing parts. -/
def PaddedTo (n : Int) (p : PadParams) (e e' : Encoding) : Prop :=
  RightPadded n p.padId p.padTypeId p.padToken e e' ∧
    List.Forall₂ (fun o o' => RightPadded n p.padId p.padTypeId p.padToken o o') e.overflowing e'.overflowing

/-! ### Lemmas -/

theorem rightPadded_length {n : Int} {p : PadParams} {e e' : Encoding}
    (h : RightPadded n p.padId p.padTypeId p.padToken e e') : (e'.ids.length : Int) = max n e.ids.length := by
  have := congrArg List.length (h.1 .ids)
  simp only [Encoding.arr, List.length_append, List.length_replicate] at this
  omega

theorem rightPadded_trans {m n : Int} {p : PadParams} (hmn : m ≤ n) {a b c : Encoding}
    (h1 : RightPadded m p.padId p.padTypeId p.padToken a b) (h2 : RightPadded n p.padId p.padTypeId p.padToken b c) :
    RightPadded n p.padId p.padTypeId p.padToken a c := by
  refine ⟨?_, by rw [h2.2, h1.2]⟩
  intro f
  have hl := rightPadded_length h1
  rw [h2.1 f, h1.1 f, List.append_assoc, List.replicate_append_replicate]
  congr 2
  omega

theorem PaddedTo.trans {m n : Int} {p : PadParams} (hmn : m ≤ n) {a b c : Encoding}
    (h1 : PaddedTo m p a b) (h2 : PaddedTo n p b c) : PaddedTo n p a c := by
  refine ⟨rightPadded_trans hmn h1.1 h2.1, ?_⟩
  obtain ⟨_, h1⟩ := h1
  obtain ⟨_, h2⟩ := h2
  generalize a.overflowing = la at h1
  generalize b.overflowing = lb at h1 h2
  generalize c.overflowing = lc at h2
  induction h1 generalizing lc with
  | nil => cases h2; exact .nil
  | cons h _ ih =>
    cases h2 with
    | cons h' t' => exact .cons (rightPadded_trans hmn h h') (ih _ t')

theorem pad_paddedTo (n : Int) (p : PadParams) (hd : p.direction = .right) (e : Encoding) :
    ∃ e', e.pad n p.padId p.padTypeId p.padToken p.direction = .ok e' ∧ PaddedTo n p e e' := by
  obtain ⟨e', h1, h2, h3⟩ := C03_pad_right e n p.padId p.padTypeId p.padToken
  rw [hd]
  refine ⟨e', h1, h2, ?_⟩
  generalize e.overflowing = l at h3
  generalize e'.overflowing = l' at h3
  induction h3 with
  | nil => exact .nil
  | cons h _ ih => exact .cons h.1 ih

/-- The length that a batch is padded to. -/
def Target (p : PadParams) (batch : List Encoding) (n : Int) : Prop :=
  p.strategy = .fixed n ∨ (p.strategy = .batchLongest ∧ ∃ m : Nat, n = m ∧ IsLongest batch m)

theorem mapRes_pad (p : PadParams) (hd : p.direction = .right) (n : Int) (batch : List Encoding) :
    ∃ out, mapRes (fun e : Encoding => e.pad n p.padId p.padTypeId p.padToken p.direction) batch = .ok out ∧
      List.Forall₂ (PaddedTo n p) batch out := by
  induction batch with
  | nil => exact ⟨[], rfl, .nil⟩
  | cons e batch ih =>
    obtain ⟨out, h1, h2⟩ := ih
    obtain ⟨e', h3, h4⟩ := pad_paddedTo n p hd e
    exact ⟨e' :: out, by simp only [mapRes, h3, h1, Res.bind_ok], .cons h4 h2⟩

theorem padEncodings_to (p : PadParams) (hd : p.direction = .right) (batch : List Encoding) (n : Int)
    (hn : Target p batch n) : ∃ out, padEncodings batch p = .ok out ∧ List.Forall₂ (PaddedTo n p) batch out := by
  obtain ⟨out, h1, h2⟩ := mapRes_pad p hd n batch
  unfold padEncodings
  split
  · next h =>
    have h := List.length_eq_zero_iff.mp h
    subst h
    exact ⟨[], rfl, .nil⟩
  · rcases hn with h | ⟨h, m, rfl, hm⟩
    · rw [h]
      exact ⟨out, h1, h2⟩
    · rw [h]
      have hM : maxLenLoop 0 batch = m := by
        obtain ⟨h1, h2, h3⟩ := maxLenLoop_spec 0 batch
        obtain ⟨⟨x, hx, hxn⟩, hall⟩ := hm
        have := h2 x hx
        rcases h3 with h3 | ⟨y, hy, h3⟩
        · omega
        · have := hall y hy; omega
      simp only [hM]
      exact ⟨out, h1, h2⟩

/-- The last step of `PostProcess`. -/
theorem postProcess_padded {trunc : Option TruncParams} {proc : Option PostProcessor} {p : PadParams} {e : Encoding}
    {q : Option Encoding} {special : Bool} {r r' : Encoding}
    (h : postProcess trunc proc none e q special = .ok (some r)) (hp : padEncodings [r] p = .ok [r']) :
    postProcess trunc proc (some p) e q special = .ok (some r') := by
  unfold postProcess at h ⊢
  obtain ⟨tp, htp, h⟩ := Res.bind_eq_ok.mp h
  simp only [htp, Res.bind_ok]
  cases proc with
  | none =>
    simp only at h ⊢
    obtain ⟨x, hx, h⟩ := Res.bind_eq_ok.mp h
    cases h
    simp only [hx, Res.bind_ok, hp, Encoding.merge]
  | some pr =>
    simp only at h ⊢
    obtain ⟨x, hx, h⟩ := Res.bind_eq_ok.mp h
    cases h
    simp only [hx, Res.bind_ok, hp, Encoding.merge]

/-- `Encode` pads its single result by itself. -/
theorem encode_padded (t : Tokenizer) (p : PadParams) (hpad : t.padding = some p) (hd : p.direction = .right)
    (hst : p.strategy ≠ .other) (x : EncodeInput) (special : Bool) (e : Encoding)
    (h : ({ t with padding := none } : Tokenizer).encode x special = .ok (some e)) :
    ∃ n e', Target p [e] n ∧ t.encode x special = .ok (some e') ∧ PaddedTo n p e e' := by
  obtain ⟨n, hn⟩ : ∃ n, Target p [e] n := by
    cases hs : p.strategy with
    | fixed n => exact ⟨n, .inl hs⟩
    | batchLongest => exact ⟨e.ids.length, .inr ⟨hs, _, rfl, ⟨e, by simp, rfl⟩, by simp⟩⟩
    | other => exact absurd hs hst
  obtain ⟨out, h1, h2⟩ := padEncodings_to p hd [e] n hn
  cases h2 with
  | cons h3 h4 =>
    cases h4
    refine ⟨n, _, hn, ?_, h3⟩
    cases x with
    | single s =>
      simp only [Tokenizer.encode, Tokenizer.encodeWith] at h ⊢
      obtain ⟨a, ha, h⟩ := Res.bind_eq_ok.mp h
      simp only [ha, Res.bind_ok, hpad]
      exact postProcess_padded h h1
    | dual s q =>
      simp only [Tokenizer.encode, Tokenizer.encodeWith] at h ⊢
      obtain ⟨a, ha, h⟩ := Res.bind_eq_ok.mp h
      obtain ⟨b, hb, h⟩ := Res.bind_eq_ok.mp h
      simp only [ha, hb, Res.bind_ok, hpad]
      exact postProcess_padded h h1

theorem target_le {p : PadParams} {e : Encoding} {n N : Int} {batch : List Encoding} (hn : Target p [e] n)
    (hN : Target p batch N) (he : e ∈ batch) : n ≤ N := by
  rcases hn with h1 | ⟨h1, m, rfl, ⟨⟨x, hx, hxm⟩, _⟩⟩
  · rcases hN with h2 | ⟨h2, _⟩
    · rw [h1] at h2; cases h2; exact Int.le_refl _
    · rw [h1] at h2; cases h2
  · rcases hN with h2 | ⟨_, M, rfl, _, hall⟩
    · rw [h1] at h2; cases h2
    · have := hall e he
      simp only [List.mem_singleton] at hx
      subst hx
      omega

theorem target_of_own {p : PadParams} {es es' : List Encoding} {N : Int} (hN : Target p es N)
    (h : List.Forall₂ (fun e e' => ∃ n, Target p [e] n ∧ PaddedTo n p e e') es es') : Target p es' N := by
  rcases hN with h1 | ⟨h1, M, rfl, ⟨x, hx, hxM⟩, hall⟩
  · exact .inl h1
  · refine .inr ⟨h1, M, rfl, ?_⟩
    have hlen : ∀ e e', (∃ n, Target p [e] n ∧ PaddedTo n p e e') → e'.ids.length = e.ids.length := by
      rintro e e' ⟨n, hn, hp⟩
      have := rightPadded_length hp.1
      rcases hn with h2 | ⟨_, m, rfl, ⟨y, hy, hym⟩, _⟩
      · rw [h1] at h2; cases h2
      · simp only [List.mem_singleton] at hy
        subst hy
        omega
    constructor
    · clear hall
      induction h with
      | nil => cases hx
      | cons h _ ih =>
        rcases List.mem_cons.mp hx with rfl | hx
        · exact ⟨_, List.mem_cons_self, by rw [hlen _ _ h, hxM]⟩
        · obtain ⟨y, hy, hyM⟩ := ih hx
          exact ⟨y, List.mem_cons_of_mem _ hy, hyM⟩
    · intro e' he'
      obtain ⟨e, he, h2⟩ := forall₂_mem_right h he'
      rw [hlen _ _ h2]
      exact hall e he

/-! ### C99 -/

/-- C99: with padding on the right, to a fixed length or to the longest of the batch, every execution of
`EncodeBatch` gives one encoding per input, in the order of the inputs: the one that `Encode` gives without
padding, followed by pad entries up to the length of the batch, and so for its overflowing parts. -/
theorem C99_batch (t : Tokenizer) (p : PadParams) (hpad : t.padding = some p) (hd : p.direction = .right)
    (inputs : List EncodeInput) (special : Bool) (es : List Encoding)
    (hes : List.Forall₂ (fun x e => ({ t with padding := none } : Tokenizer).encode x special = .ok (some e)) inputs es)
    (n : Int) (hn : Target p es n) (s : EncSt)
    (hrun : Star (EncStep (batchEnc t inputs special)) (EncSt.init inputs.length) s) (hfin : s.finished) :
    ∃ rs, s.result t.padding = .ok (.inr rs) ∧ List.Forall₂ (PaddedTo n p) es rs ∧
      List.Forall₂ (fun (e r : Encoding) => (r.ids.length : Int) = max n e.ids.length) es rs ∧
      (p.strategy = .batchLongest → ∀ r ∈ rs, (r.ids.length : Int) = n) := by
  have hst : p.strategy ≠ .other := by
    rcases hn with h | ⟨h, _⟩ <;> rw [h] <;> intro h <;> cases h
  have hown : ∃ es', List.Forall₂ (fun x e' => t.encode x special = .ok (some e')) inputs es' ∧
      List.Forall₂ (fun e e' => ∃ n, Target p [e] n ∧ PaddedTo n p e e') es es' := by
    clear hn hrun
    induction hes with
    | nil => exact ⟨[], .nil, .nil⟩
    | cons h _ ih =>
      obtain ⟨es', h1, h2⟩ := ih
      obtain ⟨m, e', h3, h4, h5⟩ := encode_padded t p hpad hd hst _ special _ h
      exact ⟨e' :: es', .cons h4 h1, .cons ⟨m, h3, h5⟩ h2⟩
  obtain ⟨es', h1, h2⟩ := hown
  have hlen : es'.length = inputs.length := forall₂_length h1
  have henc : ∀ i (h : i < es'.length), batchEnc t inputs special i = some es'[i] := by
    clear h2 hrun hlen hes
    induction h1 with
    | nil => intro i h; simp at h
    | cons h _ ih =>
      intro i hi
      cases i with
      | zero => simp [batchEnc, h]
      | succ i =>
        have := ih i (by simpa using hi)
        simpa [batchEnc] using this
  rw [← hlen] at hrun
  have hres := C20_batch_order _ es' henc t.padding s hrun hfin
  obtain ⟨rs, h3, h4⟩ := padEncodings_to p hd es' n (target_of_own hn h2)
  rw [hpad] at hres ⊢
  simp only [h3, Res.bind_ok] at hres
  have hall : List.Forall₂ (PaddedTo n p) es rs := by
    have hle : ∀ e ∈ es, ∀ m, Target p [e] m → m ≤ n := fun e he m hm => target_le hm hn he
    clear hres h3 hrun henc hlen h1 hes hn
    induction h2 generalizing rs with
    | nil => cases h4; exact .nil
    | cons h _ ih =>
      cases h4 with
      | cons h' t' =>
        obtain ⟨m, hm, hp⟩ := h
        exact .cons (hp.trans (hle _ (by simp) m hm) h') (ih _ t' (fun e he => hle e (List.mem_cons_of_mem _ he)))
  refine ⟨rs, hres, hall, ?_, ?_⟩
  · clear hres h3 hrun henc hlen h1 hes hn h2 h4
    induction hall with
    | nil => exact .nil
    | cons h _ ih => exact .cons (rightPadded_length h.1) ih
  · intro hb r hr
    obtain ⟨e, he, hp⟩ := forall₂_mem_right hall hr
    rw [rightPadded_length hp.1]
    rcases hn with h | ⟨_, m, rfl, _, hmax⟩
    · rw [hb] at h; cases h
    · have := hmax e he
      omega

/-- A case: a batch of two inputs of one and three words, to be padded to the longest, which has five tokens. -/
example : let t := { sample with padding := some ⟨.batchLongest, .right, 0, 0, ['P']⟩ }
    let xs : List EncodeInput := [.single (.words [encStr ['a']]), .single (.words [encStr ['a'], encStr ['b'], encStr ['c']])]
    ∃ e₁ e₂, List.Forall₂ (fun x e => ({ t with padding := none } : Tokenizer).encode x true = .ok (some e)) xs [e₁, e₂] ∧
      e₁.ids.length = 3 ∧ e₂.ids.length = 5 := by
  intro t xs
  have h : okAnd (({ t with padding := none } : Tokenizer).encode (.single (.words [encStr ['a']])) true)
      (fun r => r.any (fun e => e.ids.length = 3)) = true := by decide +kernel
  have h' : okAnd (({ t with padding := none } : Tokenizer).encode
      (.single (.words [encStr ['a'], encStr ['b'], encStr ['c']])) true)
      (fun r => r.any (fun e => e.ids.length = 5)) = true := by decide +kernel
  obtain ⟨r, h1, h2⟩ := okAnd_spec h
  obtain ⟨r', h1', h2'⟩ := okAnd_spec h'
  cases r with
  | none => cases h2
  | some e₁ =>
    cases r' with
    | none => cases h2'
    | some e₂ => exact ⟨e₁, e₂, .cons h1 (.cons h1' .nil), of_decide_eq_true h2, of_decide_eq_true h2'⟩

end Tok.Whole
