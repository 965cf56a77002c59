import Verif.Vocab.Model

/-! Helper lemmas for the vocabulary invariant. -/

namespace Tok
namespace VocabState

/-- Invariant of the vocabulary state. -/
structure Inv (T : VocabState) : Prop where
  vocabNodup : (T.vocab.map (·.1)).Nodup
  addedNodup : (T.added.map (·.1)).Nodup
  bound : ∀ c i, T.tokenToId c = some i → 0 ≤ i ∧ i < T.modelSize + T.added.length
  inj : ∀ a b i, T.tokenToId a = some i → T.tokenToId b = some i → a = b
  agree : ∀ c i j, mget T.vocab c = some i → mget T.added c = some j → i = j
  revAdded : ∀ i c, mget T.addedR i = some c → T.tokenToId c = some i
  fwdAdded : ∀ c i, mget T.added c = some i → mget T.addedR i = some c
  revModel : ∀ i c, T.vocabR i = some c → T.tokenToId c = some i
  fwdModel : ∀ c i, mget T.vocab c = some i → mget T.added c = none → T.vocabR i = some c

theorem Inv.roundtrip {T : VocabState} (h : T.Inv) (c : Str) (i : Int) :
    T.tokenToId c = some i ↔ T.idToToken i = some c := by
  constructor
  · intro hc
    unfold idToToken
    cases hr : mget T.addedR i with
    | some c' =>
      have := h.revAdded _ _ hr
      simp [h.inj _ _ _ hc this]
    | none =>
      simp only
      unfold tokenToId at hc
      cases ha : mget T.added c with
      | some j =>
        rw [ha] at hc; cases hc
        rw [h.fwdAdded _ _ ha] at hr; cases hr
      | none =>
        rw [ha] at hc
        exact h.fwdModel _ _ hc ha
  · unfold idToToken
    cases hr : mget T.addedR i with
    | some c' => intro hc; cases hc; exact h.revAdded _ _ hr
    | none => intro hc; exact h.revModel _ _ hc

theorem addOne_known {T : VocabState} {k : Nat} {t : AddedToken} {i : Int}
    (h0 : t.content ≠ []) (h : T.tokenToId t.content = some i) :
    T.addOne k t = ({ T with addedR := mset T.addedR i t.content }, k + 1) := by
  unfold addOne; rw [if_neg h0, h]

theorem addOne_new {T : VocabState} {k : Nat} {t : AddedToken}
    (h0 : t.content ≠ []) (h : T.tokenToId t.content = none) :
    T.addOne k t = ({ T with
          added := mset T.added t.content (T.modelSize + T.added.length : Int)
          addedTokens := if T.isSpecial t.content then T.addedTokens else T.addedTokens ++ [t]
          addedR := mset T.addedR (T.modelSize + T.added.length : Int) t.content }, k) := by
  unfold addOne; rw [if_neg h0, h]

theorem tokenToId_none {T : VocabState} {c : Str} :
    T.tokenToId c = none ↔ mget T.added c = none ∧ mget T.vocab c = none := by
  unfold tokenToId
  cases mget T.added c <;> simp

theorem addOne_tokenToId_new {T : VocabState} {k : Nat} {t : AddedToken} (c : Str)
    (h0 : t.content ≠ []) (h : T.tokenToId t.content = none) :
    (T.addOne k t).1.tokenToId c =
      if c = t.content then some (T.modelSize + T.added.length : Int) else T.tokenToId c := by
  rw [addOne_new h0 h]
  unfold tokenToId
  simp only [mget_mset]
  by_cases e : c = t.content <;> simp [e]

theorem addOne_inv {T : VocabState} (k : Nat) (t : AddedToken) (h : T.Inv) :
    (T.addOne k t).1.Inv := by
  by_cases h0 : t.content = []
  · unfold addOne; rw [if_pos h0]; exact h
  cases hk : T.tokenToId t.content with
  | some i =>
    rw [addOne_known h0 hk]
    refine { h with
      revAdded := ?_
      fwdAdded := ?_ }
    · intro j c hj
      simp only [mget_mset] at hj
      split at hj
      · next e => cases hj; subst e; exact hk
      · exact h.revAdded _ _ hj
    · intro c j hj
      simp only [mget_mset]
      split
      · next e =>
        subst e
        have : T.tokenToId c = some j := by unfold tokenToId; rw [hj]
        rw [h.inj _ _ _ this hk]
      · exact h.fwdAdded _ _ hj
  | none =>
    have hn := tokenToId_none.1 hk
    have htok := fun c => addOne_tokenToId_new (k := k) c h0 hk
    have hlen : ((mset T.added t.content (T.modelSize + T.added.length : Int)).length : Int)
        = T.added.length + 1 := by
      rw [mset_length, hn.1]; simp
    rw [addOne_new h0 hk] at htok ⊢
    constructor
    · exact h.vocabNodup
    · exact mset_nodup _ _ _ h.addedNodup
    · intro c i hc
      rw [htok] at hc
      simp only [hlen]
      show 0 ≤ i ∧ i < (T.modelSize : Int) + _
      split at hc
      · cases hc; constructor <;> omega
      · have := h.bound _ _ hc; omega
    · intro a b i ha hb
      rw [htok] at ha hb
      split at ha <;> split at hb
      · next e1 e2 => rw [e1, e2]
      · have := h.bound _ _ hb; cases ha; omega
      · have := h.bound _ _ ha; cases hb; omega
      · exact h.inj _ _ _ ha hb
    · intro c i j hi hj
      simp only [mget_mset] at hj
      split at hj
      · next e => subst e; simp only at hi; rw [hn.2] at hi; cases hi
      · exact h.agree _ _ _ hi hj
    · intro i c hc
      rw [htok]
      simp only [mget_mset] at hc
      split at hc
      · next e => cases hc; simp [e]
      · have := h.revAdded _ _ hc
        split
        · next e => subst e; rw [hk] at this; cases this
        · exact this
    · intro c i hc
      simp only [mget_mset] at hc ⊢
      split at hc
      · next e => cases hc; simp [e]
      · have : T.tokenToId c = some i := by unfold tokenToId; rw [hc]
        have hb := h.bound _ _ this
        rw [if_neg (by omega)]
        exact h.fwdAdded _ _ hc
    · intro i c hc
      rw [htok]
      have := h.revModel _ _ hc
      split
      · next e => subst e; rw [hk] at this; cases this
      · exact this
    · intro c i hc ha
      simp only [mget_mset] at ha
      split at ha
      · cases ha
      · exact h.fwdModel _ _ hc ha

theorem addOne_stable {T : VocabState} (k : Nat) (t : AddedToken) {c : Str} {i : Int}
    (hc : T.tokenToId c = some i) : (T.addOne k t).1.tokenToId c = some i := by
  by_cases h0 : t.content = []
  · unfold addOne; rw [if_pos h0]; exact hc
  cases hk : T.tokenToId t.content with
  | some j => rw [addOne_known h0 hk]; exact hc
  | none =>
    rw [addOne_tokenToId_new c h0 hk]
    split
    · next e => subst e; rw [hk] at hc; cases hc
    · exact hc

theorem addOne_has {T : VocabState} (k : Nat) (t : AddedToken) (h0 : t.content ≠ []) :
    ((T.addOne k t).1.tokenToId t.content).isSome := by
  cases hk : T.tokenToId t.content with
  | some j => rw [addOne_stable k t hk]; rfl
  | none => rw [addOne_tokenToId_new _ h0 hk]; simp

theorem addOne_only {T : VocabState} (k : Nat) (t : AddedToken) {c : Str}
    (h : ((T.addOne k t).1.tokenToId c).isSome) :
    (T.tokenToId c).isSome ∨ (c = t.content ∧ c ≠ []) := by
  by_cases h0 : t.content = []
  · unfold addOne at h; rw [if_pos h0] at h; exact Or.inl h
  cases hk : T.tokenToId t.content with
  | some j => rw [addOne_known h0 hk] at h; exact Or.inl h
  | none =>
    rw [addOne_tokenToId_new c h0 hk] at h
    split at h
    · next e => subst e; exact Or.inr ⟨rfl, h0⟩
    · exact Or.inl h

theorem addOne_size {T : VocabState} (k : Nat) (t : AddedToken) :
    (T.addOne k t).1.modelSize = T.modelSize ∧
    (T.addOne k t).1.vocab = T.vocab ∧ (T.addOne k t).1.vocabR = T.vocabR ∧
    (T.addOne k t).1.fixedSize = T.fixedSize ∧
    (T.addOne k t).1.specialSet = T.specialSet ∧
    (T.addOne k t).1.specialTokens = T.specialTokens ∧
    T.added.length ≤ (T.addOne k t).1.added.length := by
  unfold addOne
  split
  · simp
  · split
    · simp [modelSize]
    · simp only [modelSize, true_and]
      rw [mset_length]; split <;> omega

/-- Registered (non-special) tokens are known. -/
def Registered (T : VocabState) : Prop :=
  ∀ t ∈ T.addedTokens, (T.tokenToId t.content).isSome

theorem addOne_registered {T : VocabState} (k : Nat) (t : AddedToken) (h : T.Registered) :
    (T.addOne k t).1.Registered := by
  intro u hu
  by_cases h0 : t.content = []
  · unfold addOne at hu ⊢; rw [if_pos h0] at hu ⊢; exact h u hu
  cases hk : T.tokenToId t.content with
  | some j => rw [addOne_known h0 hk] at hu ⊢; exact h u hu
  | none =>
    have hhas := addOne_has (T := T) k t h0
    have hold : u ∈ T.addedTokens → ((T.addOne k t).1.tokenToId u.content).isSome := by
      intro hu'
      obtain ⟨i, hi⟩ := Option.isSome_iff_exists.1 (h u hu')
      rw [addOne_stable k t hi]; rfl
    rw [addOne_new h0 hk] at hu
    simp only at hu
    split at hu
    · exact hold hu
    · rcases List.mem_append.1 hu with hu | hu
      · exact hold hu
      · simp only [List.mem_singleton] at hu; subst hu; exact hhas

/-! ### The loop -/

theorem addLoop_inv (ts : List AddedToken) : ∀ {T : VocabState} (k : Nat), T.Inv →
    (T.addLoop k ts).1.Inv := by
  induction ts with
  | nil => intro T k h; exact h
  | cons t ts ih => intro T k h; exact ih _ (addOne_inv k t h)

theorem addLoop_stable (ts : List AddedToken) : ∀ {T : VocabState} (k : Nat) {c : Str} {i : Int},
    T.tokenToId c = some i → (T.addLoop k ts).1.tokenToId c = some i := by
  induction ts with
  | nil => intro T k c i h; exact h
  | cons t ts ih => intro T k c i h; exact ih _ (addOne_stable k t h)

theorem addLoop_has (ts : List AddedToken) : ∀ {T : VocabState} (k : Nat) (t : AddedToken),
    t ∈ ts → t.content ≠ [] → ((T.addLoop k ts).1.tokenToId t.content).isSome := by
  induction ts with
  | nil => intro T k t h; cases h
  | cons u ts ih =>
    intro T k t h h0
    rcases List.mem_cons.1 h with rfl | h
    · obtain ⟨i, hi⟩ := Option.isSome_iff_exists.1 (addOne_has (T := T) k t h0)
      show ((addLoop (T.addOne k t).1 (T.addOne k t).2 ts).1.tokenToId t.content).isSome
      rw [addLoop_stable ts _ hi]; rfl
    · exact ih _ t h h0

theorem addLoop_only (ts : List AddedToken) : ∀ {T : VocabState} (k : Nat) {c : Str},
    ((T.addLoop k ts).1.tokenToId c).isSome →
    (T.tokenToId c).isSome ∨ (c ≠ [] ∧ ∃ t ∈ ts, t.content = c) := by
  induction ts with
  | nil => intro T k c h; exact Or.inl h
  | cons u ts ih =>
    intro T k c h
    rcases ih _ h with h | ⟨h0, t, ht, e⟩
    · rcases addOne_only k u h with h | ⟨e, h0⟩
      · exact Or.inl h
      · exact Or.inr ⟨h0, u, by simp, e.symm⟩
    · exact Or.inr ⟨h0, t, by simp [ht], e⟩

theorem addLoop_size (ts : List AddedToken) : ∀ {T : VocabState} (k : Nat),
    (T.addLoop k ts).1.modelSize = T.modelSize ∧
    (T.addLoop k ts).1.vocab = T.vocab ∧ (T.addLoop k ts).1.vocabR = T.vocabR ∧
    (T.addLoop k ts).1.fixedSize = T.fixedSize ∧
    (T.addLoop k ts).1.specialSet = T.specialSet ∧
    (T.addLoop k ts).1.specialTokens = T.specialTokens ∧
    T.added.length ≤ (T.addLoop k ts).1.added.length := by
  induction ts with
  | nil => intro T k; exact ⟨rfl, rfl, rfl, rfl, rfl, rfl, Nat.le_refl _⟩
  | cons t ts ih =>
    intro T k
    have h1 := addOne_size (T := T) k t
    have h2 := ih (T := (T.addOne k t).1) (T.addOne k t).2
    show _ ∧ _
    refine ⟨h2.1.trans h1.1, h2.2.1.trans h1.2.1, h2.2.2.1.trans h1.2.2.1,
      h2.2.2.2.1.trans h1.2.2.2.1, h2.2.2.2.2.1.trans h1.2.2.2.2.1,
      h2.2.2.2.2.2.1.trans h1.2.2.2.2.2.1, Nat.le_trans h1.2.2.2.2.2.2 h2.2.2.2.2.2.2⟩

theorem addLoop_registered (ts : List AddedToken) : ∀ {T : VocabState} (k : Nat), T.Registered →
    (T.addLoop k ts).1.Registered := by
  induction ts with
  | nil => intro T k h; exact h
  | cons t ts ih => intro T k h; exact ih _ (addOne_registered k t h)

/-! ### Refresh -/

theorem refreshIds_ok {T : VocabState} (l : List AddedToken)
    (h : ∀ t ∈ l, (T.tokenToId t.content).isSome) :
    ∃ r, T.refreshIds l = .ok r ∧ r.map (·.1) = l ∧
      ∀ p ∈ r, T.tokenToId p.1.content = some p.2 := by
  induction l with
  | nil => exact ⟨[], rfl, rfl, by simp⟩
  | cons t l ih =>
    obtain ⟨r, hr, hm, hp⟩ := ih (fun t ht => h t (by simp [ht]))
    obtain ⟨i, hi⟩ := Option.isSome_iff_exists.1 (h t (by simp))
    refine ⟨(t, i) :: r, ?_, by simp [hm], ?_⟩
    · unfold refreshIds; rw [hi, hr]; rfl
    · intro p hp'
      rcases List.mem_cons.1 hp' with rfl | hp'
      · exact hi
      · exact hp p hp'

/-- Special tokens are known. -/
def SpecialKnown (T : VocabState) : Prop :=
  ∀ t ∈ T.specialTokens, (T.tokenToId t.content).isSome

/-- The token/id pairs the splitters hold are current: each id is the token's. -/
def SplitOk (T : VocabState) : Prop :=
  (∀ p ∈ T.splitRe ++ T.splitNormalizedRe, T.tokenToId p.1.content = some p.2)

/-- `T` and `T'` answer the same queries. -/
theorem refresh_ok {T : VocabState} (h1 : T.Registered) (h2 : T.SpecialKnown) :
    ∃ r s, T.refresh = .ok { T with splitNormalizedRe := r, splitRe := s } ∧
      (∀ p ∈ s ++ r, T.tokenToId p.1.content = some p.2) := by
  obtain ⟨r, hr, hm, hp⟩ := refreshIds_ok (T := T) (T.specialTokens ++ T.addedTokens) (by
    intro t ht
    rcases List.mem_append.1 ht with ht | ht
    · exact h2 t ht
    · exact h1 t ht)
  refine ⟨_, _, by unfold refresh; rw [hr]; rfl, ?_⟩
  intro p hp'
  rw [List.mem_append, List.mem_filter, List.mem_filter] at hp'
  rcases hp' with h | h <;> exact hp p h.1

theorem registerSpecial_same (ts : List AddedToken) : ∀ {T : VocabState},
    ((T.registerSpecial ts).tokenToId = T.tokenToId) ∧
    ((T.registerSpecial ts).idToToken = T.idToToken) ∧
    (T.registerSpecial ts).vocab = T.vocab ∧ (T.registerSpecial ts).vocabR = T.vocabR ∧
    (T.registerSpecial ts).fixedSize = T.fixedSize ∧
    (T.registerSpecial ts).added = T.added ∧ (T.registerSpecial ts).addedR = T.addedR ∧
    (T.registerSpecial ts).addedTokens = T.addedTokens := by
  induction ts with
  | nil => intro T; exact ⟨rfl, rfl, rfl, rfl, rfl, rfl, rfl, rfl⟩
  | cons t ts ih =>
    intro T
    unfold registerSpecial
    split
    · exact ih
    · exact ih

theorem registerSpecial_mem (ts : List AddedToken) : ∀ {T : VocabState} (u : AddedToken),
    u ∈ (T.registerSpecial ts).specialTokens →
    u ∈ T.specialTokens ∨ (u ∈ ts ∧ u.content ≠ []) := by
  induction ts with
  | nil => intro T u h; exact Or.inl h
  | cons t ts ih =>
    intro T u h
    unfold registerSpecial at h
    split at h
    · next hc =>
      rcases ih u h with h | h
      · rcases List.mem_append.1 h with h | h
        · exact Or.inl h
        · simp only [List.mem_singleton] at h; subst h; exact Or.inr ⟨by simp, hc.1⟩
      · exact Or.inr ⟨by simp [h.1], h.2⟩
    · rcases ih u h with h | h
      · exact Or.inl h
      · exact Or.inr ⟨by simp [h.1], h.2⟩

theorem Inv_congr {T T' : VocabState} (h : T.Inv) (h1 : T'.vocab = T.vocab)
    (h2 : T'.vocabR = T.vocabR) (h3 : T'.fixedSize = T.fixedSize) (h4 : T'.added = T.added)
    (h5 : T'.addedR = T.addedR) : T'.Inv := by
  obtain ⟨a, b, c, d, e, f, g, i, j, k⟩ := T
  obtain ⟨a', b', c', d', e', f', g', i', j', k'⟩ := T'
  simp only at h1 h2 h3 h4 h5
  subst h1 h2 h3 h4 h5
  exact ⟨h.1, h.2, h.3, h.4, h.5, h.6, h.7, h.8, h.9⟩

/-! ### Writing the added tokens into the model's map -/

theorem mget_writeAll (ps : List (Str × Int)) : ∀ (m : List (Str × Int)) (c : Str),
    (ps.map (·.1)).Nodup →
    mget (writeAll m ps) c = (mget ps c).or (mget m c) := by
  induction ps with
  | nil => intro m c _; simp [writeAll]
  | cons p ps ih =>
    intro m c hn
    simp only [List.map_cons, List.nodup_cons] at hn
    unfold writeAll
    rw [ih _ _ hn.2, mget_mset]
    by_cases e : c = p.1
    · subst e
      have : mget ps p.1 = none := mget_eq_none.2 hn.1
      simp [this, mget]
    · have : mget (p :: ps) c = mget ps c := by simp [mget, Ne.symm e]
      rw [this, if_neg e]

theorem writeAll_nodup (ps : List (Str × Int)) : ∀ (m : List (Str × Int)),
    (m.map (·.1)).Nodup → ((writeAll m ps).map (·.1)).Nodup := by
  induction ps with
  | nil => intro m h; exact h
  | cons p ps ih => intro m h; exact ih _ (mset_nodup _ _ _ h)

theorem writeAll_length (ps : List (Str × Int)) : ∀ (m : List (Str × Int)),
    (ps.map (·.1)).Nodup →
    (writeAll m ps).length = m.length + (ps.filter (fun p => (mget m p.1).isNone)).length := by
  induction ps with
  | nil => intro m _; simp [writeAll]
  | cons p ps ih =>
    intro m hn
    simp only [List.map_cons, List.nodup_cons] at hn
    unfold writeAll
    rw [ih _ hn.2, mset_length]
    have hf : ps.filter (fun q => (mget (mset m p.1 p.2) q.1).isNone) =
        ps.filter (fun q => (mget m q.1).isNone) := by
      apply List.filter_congr
      intro q hq
      rw [mget_mset_ne]
      intro e
      exact hn.1 (e ▸ List.mem_map.2 ⟨q, hq, rfl⟩)
    rw [hf]
    cases hm : mget m p.1 with
    | none => simp [hm]; omega
    | some v => simp [hm]

theorem mget_perm {m m' : List (Str × Int)} (hp : m.Perm m') (hn : (m.map (·.1)).Nodup) (c : Str) :
    mget m' c = mget m c := by
  have hn' : (m'.map (·.1)).Nodup := (hp.map _).nodup_iff.1 hn
  cases h : mget m c with
  | some v => exact mget_of_mem hn' (hp.mem_iff.1 (mem_of_mget h))
  | none =>
    rw [mget_eq_none] at h ⊢
    intro hc; exact h ((hp.map _).mem_iff.2 hc)

theorem getVocab_tokenToId {T : VocabState} (h : T.Inv) {order : List (Str × Int)}
    (hp : T.added.Perm order) (b : Bool) :
    (T.getVocab b order).1.tokenToId = T.tokenToId := by
  funext c
  unfold getVocab
  split
  · unfold tokenToId
    simp only
    have hn : (order.map (·.1)).Nodup := (hp.map _).nodup_iff.1 h.addedNodup
    rw [mget_writeAll _ _ _ hn, mget_perm hp h.addedNodup]
    cases mget T.added c <;> simp
  · rfl

theorem getVocab_size_le (T : VocabState) (order : List (Str × Int)) (b : Bool)
    (hn : (order.map (·.1)).Nodup) :
    T.modelSize ≤ (T.getVocab b order).1.modelSize := by
  unfold getVocab
  split
  · unfold modelSize
    cases T.fixedSize with
    | some n => simp
    | none => simp [writeAll_length _ _ hn]
  · exact Nat.le_refl _

theorem getVocab_inv {T : VocabState} (h : T.Inv) {order : List (Str × Int)}
    (hp : T.added.Perm order) (b : Bool) : (T.getVocab b order).1.Inv := by
  have ht := getVocab_tokenToId h hp b
  have hn : (order.map (·.1)).Nodup := (hp.map _).nodup_iff.1 h.addedNodup
  have hs := getVocab_size_le T order b hn
  have hadd : (T.getVocab b order).1.added = T.added := by unfold getVocab; split <;> rfl
  have haddR : (T.getVocab b order).1.addedR = T.addedR := by unfold getVocab; split <;> rfl
  have hvR : (T.getVocab b order).1.vocabR = T.vocabR := by unfold getVocab; split <;> rfl
  have hv : ∀ c, mget (T.getVocab b order).1.vocab c = mget T.vocab c ∨
      mget (T.getVocab b order).1.vocab c = (mget T.added c).or (mget T.vocab c) := by
    intro c
    unfold getVocab
    split
    · right; simp only; rw [mget_writeAll _ _ _ hn, mget_perm hp h.addedNodup]
    · left; rfl
  constructor
  · unfold getVocab
    split
    · exact writeAll_nodup _ _ h.vocabNodup
    · exact h.vocabNodup
  · rw [hadd]; exact h.addedNodup
  · intro c i hc
    rw [ht] at hc
    have := h.bound c i hc
    rw [hadd]; omega
  · rw [ht]; exact h.inj
  · intro c i j hi hj
    rw [hadd] at hj
    rcases hv c with e | e
    · rw [e] at hi; exact h.agree _ _ _ hi hj
    · rw [e, hj] at hi; simpa using hi.symm
  · rw [ht, haddR]; exact h.revAdded
  · rw [hadd, haddR]; exact h.fwdAdded
  · rw [ht, hvR]; exact h.revModel
  · intro c i hi ha
    rw [hadd] at ha; rw [hvR]
    rcases hv c with e | e
    · rw [e] at hi; exact h.fwdModel _ _ hi ha
    · rw [e, ha] at hi; exact h.fwdModel _ _ (by simpa using hi) ha

end VocabState
end Tok
