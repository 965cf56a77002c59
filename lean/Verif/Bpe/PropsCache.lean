import Verif.Bpe.Cache

/-! # C32: the BPE cache -/

namespace Tok

namespace Cache

variable {V : Type}

theorem find_put (m : List (Str × V)) (k k' : Str) (v : V) :
    find (put m k v) k' = if k' = k then some v else find m k' := by
  unfold find put
  by_cases h : k' = k
  · subst h; simp
  · have h1 : (k == k') = false := by simpa using Ne.symm h
    rw [List.find?_cons, h1, if_neg h]
    simp only
    congr 1
    induction m with
    | nil => rfl
    | cons p m ih =>
      rw [List.filter_cons]
      by_cases hp : p.1 = k
      · have : (p.1 == k') = false := by rw [hp]; exact h1
        simp [hp, h1, ih]
      · simp [hp, List.find?_cons, ih]

theorem length_put (m : List (Str × V)) (k : Str) (v : V) : (put m k v).length ≤ m.length + 1 := by
  unfold put
  have := List.length_filter_le (fun p : Str × V => p.1 != k) m
  simp
  exact this

theorem length_setLoop (r : Int) : ∀ (vs : List (Str × V)) (i : Nat) (m : List (Str × V)),
    (i : Int) ≤ r → ((setLoop r i vs m).length : Int) ≤ m.length + (r - i) := by
  intro vs
  induction vs with
  | nil => intro i m h; simp only [setLoop]; omega
  | cons v vs ih =>
    intro i m h
    unfold setLoop
    split
    · omega
    · have h1 := ih (i + 1) (put m v.1 v.2) (by omega)
      have h2 := length_put m v.1 v.2
      omega

theorem setLoop_mem (r : Int) (P : Str → V → Prop) : ∀ (vs : List (Str × V)) (i : Nat)
    (m : List (Str × V)), (∀ k v, find m k = some v → P k v) → (∀ p ∈ vs, P p.1 p.2) →
    ∀ k v, find (setLoop r i vs m) k = some v → P k v := by
  intro vs
  induction vs with
  | nil => intro i m hm _ k v h; exact hm k v h
  | cons x vs ih =>
    intro i m hm hv
    unfold setLoop
    split
    · exact hm
    · apply ih
      · intro k v h
        rw [find_put] at h
        split at h
        · rename_i hk
          cases h
          rw [hk]
          exact hv x (by simp)
        · exact hm k v h
      · exact fun p hp => hv p (by simp [hp])

theorem setValues_mem (c : Cache V) (P : Str → V → Prop) (vs : List (Str × V))
    (hc : ∀ k v, c.get k = some v → P k v) (hv : ∀ p ∈ vs, P p.1 p.2) (k : Str) (v : V)
    (h : (c.setValues vs).get k = some v) : P k v := by
  unfold setValues at h
  split at h
  · exact hc k v h
  · dsimp only at h
    split at h
    · exact hc k v h
    · exact setLoop_mem _ P vs 0 c.cmap hc hv k v h

end Cache

/-- **C32.** `SetValues` keeps the cache within its capacity, for any items, repeated or not,
in any state that is within it. -/
theorem C32_setValues_bounded (c : Cache V) (vs : List (Str × V))
    (h : (c.size : Int) ≤ max 0 c.capacity) :
    ((c.setValues vs).size : Int) ≤ max 0 c.capacity ∧ (c.setValues vs).capacity = c.capacity := by
  unfold Cache.setValues
  split
  · exact ⟨h, rfl⟩
  · dsimp only
    split
    · exact ⟨h, rfl⟩
    · have := Cache.length_setLoop (c.capacity - (c.cmap.length : Int)) vs 0 c.cmap (by omega)
      refine ⟨?_, rfl⟩
      unfold Cache.size
      simp only
      omega

/-- **C32.** A stored item is found again, as long as there is room. -/
theorem C32_get_set (c : Cache V) (w : Str) (v : V) (h : (c.size : Int) < c.capacity) (k : Str) :
    (c.setValues [(w, v)]).get k = if k = w then some v else c.get k := by
  unfold Cache.size at h
  unfold Cache.setValues Cache.get
  rw [if_neg (by omega)]
  dsimp only
  rw [if_neg (by omega)]
  simp only [Cache.setLoop]
  rw [if_neg (by omega)]
  exact Cache.find_put _ _ _ _

/-- **C32.** `IsFull` tells whether a new item would be dropped: a full cache stays as it is, any other
finds the item again. -/
theorem C32_isFull (c : Cache V) (w : Str) (v : V) :
    (c.isFull = true → ∀ vs, c.setValues vs = c) ∧ (c.isFull = false → (c.setValues [(w, v)]).get w = some v) := by
  unfold Cache.isFull
  constructor
  · intro h vs
    unfold Cache.setValues
    rw [if_pos (of_decide_eq_true h)]
  · intro h
    have := of_decide_eq_false h
    rw [C32_get_set c w v (by unfold Cache.size; omega)]
    simp

example : (Cache.new 1 : Cache Nat).isFull = false ∧ ((Cache.new 1 : Cache Nat).setValues [(['a'], 5)]).isFull = true := by
  decide

/-- **C32.** `GetValues` gives, for each key in order, the value `Get` finds or else the zero value. -/
theorem C32_getValues (c : Cache V) (zero : V) (ks : List Str) (i : Nat) (k : Str) (h : ks[i]? = some k) :
    (c.getValues zero ks).length = ks.length ∧
    (∀ v, c.get k = some v → (c.getValues zero ks)[i]? = some v) ∧
    (c.get k = none → (c.getValues zero ks)[i]? = some zero) := by
  unfold Cache.getValues
  refine ⟨by simp, ?_, ?_⟩
  · intro v hv; simp [h, hv]
  · intro hv; simp [h, hv]

example : ((Cache.new 4 : Cache Nat).setValues [(['a'], 5)]).getValues 0 [['b'], ['a']] = [0, 5] := by decide

/-- **C32.** Under every interleaving of tokenizations and cache clears by any number of
goroutines, starting with an empty cache of any capacity: every call returns what it
would without the cache, and the cache never exceeds its capacity. -/
theorem C32_transparent (merge : Str → Res V) (toTokens : V → R) (capacity : Int)
    (s : CacheState V R)
    (h : Star (CacheStep merge toTokens) ⟨Cache.new capacity, fun _ => none, []⟩ s) :
    (∀ p ∈ s.log, ∃ v, merge p.1 = .ok v ∧ p.2 = toTokens v) ∧
    (s.cache.size : Int) ≤ max 0 capacity := by
  have key : ((∀ p ∈ s.log, ∃ v, merge p.1 = .ok v ∧ p.2 = toTokens v) ∧
      (∀ k v, s.cache.get k = some v → merge k = .ok v)) ∧
      (s.cache.size : Int) ≤ max 0 s.cache.capacity ∧ s.cache.capacity = capacity := by
    refine h.invariant (P := fun s => ((∀ p ∈ s.log, ∃ v, merge p.1 = .ok v ∧ p.2 = toTokens v) ∧
      (∀ k v, s.cache.get k = some v → merge k = .ok v)) ∧
      (s.cache.size : Int) ≤ max 0 s.cache.capacity ∧ s.cache.capacity = capacity) ?_ ?_
    · rintro s t ⟨⟨h1, h2⟩, h3, h4⟩ hst
      cases hst with
      | hit t w v hb hg =>
        refine ⟨⟨?_, h2⟩, h3, h4⟩
        intro p hp
        rcases List.mem_cons.1 hp with rfl | hp
        · exact ⟨v, h2 w v hg, rfl⟩
        · exact h1 p hp
      | miss t w hb hg => exact ⟨⟨h1, h2⟩, h3, h4⟩
      | finish t w v hb hm =>
        obtain ⟨b1, b2⟩ := C32_setValues_bounded s.cache [(w, v)] h3
        refine ⟨⟨?_, ?_⟩, ?_, ?_⟩
        · intro p hp
          rcases List.mem_cons.1 hp with rfl | hp
          · exact ⟨v, hm, rfl⟩
          · exact h1 p hp
        · exact Cache.setValues_mem s.cache (fun k v => merge k = .ok v) [(w, v)] h2 (by simpa using hm)
        · simp only; rw [b2]; exact b1
        · simp only; rw [b2]; exact h4
      | clear =>
        refine ⟨⟨h1, ?_⟩, ?_, h4⟩
        · intro k v hk; cases hk
        · simp [Cache.clear, Cache.size]; omega
    · refine ⟨⟨(by intro p hp; cases hp), (by intro k v hk; cases hk)⟩, ?_, rfl⟩
      simp [Cache.new, Cache.size]; omega
  obtain ⟨⟨h1, _⟩, h3, h4⟩ := key
  rw [h4] at h3
  exact ⟨h1, h3⟩

/-- The calls of `TokenizeWithCache` are runs of these steps: what one goroutine does alone. -/
theorem tokenizeWithCache_steps (merge : Str → Res V) (toTokens : V → R) (s : CacheState V R)
    (t : Nat) (hb : s.busy t = none) (w : Str) (r : R) (c' : Option (Cache V))
    (h : tokenizeWithCache merge toTokens (some s.cache) w = .ok (r, c')) :
    ∃ s', Star (CacheStep merge toTokens) s s' ∧ s'.busy = s.busy ∧ s'.log = (w, r) :: s.log ∧
      c' = some s'.cache := by
  unfold tokenizeWithCache at h
  simp only at h
  split at h
  · rename_i v hg
    cases h
    exact ⟨_, Star.single (.hit s t w v hb hg), rfl, rfl, rfl⟩
  · rename_i hg
    split at h
    · rename_i v hm
      cases h
      refine ⟨_, Star.tail (Star.single (.miss s t w hb hg)) (.finish _ t w v (by simp) hm), ?_, rfl, rfl⟩
      funext u
      simp only
      split
      · rename_i hu; rw [hu, hb]
      · rfl
    · cases h
    · cases h

/-- **C32.** One goroutine, any history: `Tokenize` on a cache that holds only right entries
gives the tokens of the merged word and leaves such a cache, whatever its capacity. -/
theorem C32_sequential (merge : Str → Res V) (toTokens : V → R) (empty : R) (c : Cache V)
    (hc : ∀ k v, c.get k = some v → merge k = .ok v) (w : Str) (hw : w ≠ []) :
    match merge w with
    | .ok v => ∃ c', bpeTokenize merge toTokens empty (some c) w = .ok (toTokens v, some c') ∧
        ∀ k v, c'.get k = some v → merge k = .ok v
    | .err => bpeTokenize merge toTokens empty (some c) w = .err
    | .panic => bpeTokenize merge toTokens empty (some c) w = .panic := by
  have hl : w.length ≠ 0 := by simpa using hw
  unfold bpeTokenize tokenizeWithCache
  rw [if_neg hl]
  simp only
  cases hg : c.get w with
  | some v =>
    rw [hc w v hg]
    exact ⟨c, rfl, hc⟩
  | none =>
    cases hm : merge w with
    | ok v =>
      exact ⟨_, rfl, Cache.setValues_mem c (fun k v => merge k = .ok v) [(w, v)] hc (by simpa using hm)⟩
    | err => rfl
    | panic => rfl

/-- **C32, violated.** With a cache capacity of 0 the model has no cache, and tokenizing any
non-empty word dereferences it: the call panics whatever the word. -/
theorem C32_no_cache_violated (merge : Str → Res V) (toTokens : V → R) (empty : R) (w : Str)
    (hw : w ≠ []) : bpeTokenize merge toTokens empty (buildCache V 0) w = .panic := by
  have hl : w.length ≠ 0 := by simpa using hw
  simp [bpeTokenize, buildCache, tokenizeWithCache, hl]

/-- A cache of capacity 1: the second word is not stored, the first is hit again. -/
example : (((Cache.new 1 : Cache Nat).setValues [(['a'], 1)]).setValues [(['b'], 2)]).cmap =
    [(['a'], 1)] := by decide

/-- Two goroutines missing the same word at the same time. -/
example : Star (CacheStep (fun w => Res.ok w.length) id) ⟨Cache.new 5, fun _ => none, []⟩
    ⟨((Cache.new 5 : Cache Nat).setValues [(['a'], 1)]).setValues [(['a'], 1)],
      fun u => if u = 1 then none else if u = 0 then none else if u = 1 then some ['a'] else
        if u = 0 then some ['a'] else none, [(['a'], 1), (['a'], 1)]⟩ :=
  .tail (.tail (.tail (.tail .refl (.miss _ 0 ['a'] rfl rfl)) (.miss _ 1 ['a'] rfl rfl))
    (.finish _ 0 ['a'] 1 rfl rfl)) (.finish _ 1 ['a'] 1 rfl rfl)

end Tok
