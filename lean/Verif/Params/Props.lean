import Verif.Params.Model

/-!
# C123: parameters are a store with keys; a clone is independent
-/

namespace Tok.Params

/-! ### Lemmas -/

theorem mget_mdel (m : PMap) (k k' : Str) : mget (mdel m k) k' = if k' = k then none else mget m k' := by
  induction m with
  | nil => simp [mdel]
  | cons e m ih =>
    unfold mdel at ih ⊢
    by_cases he : e.1 = k
    · rw [List.filter_cons_of_neg (by simpa using he), ih]
      split
      · rfl
      · next h =>
        have : ¬ e.1 = k' := by rw [he]; exact fun h' => h h'.symm
        simp [mget, this]
    · rw [List.filter_cons_of_pos (by simpa using he)]
      simp only [mget, ih]
      by_cases hk : e.1 = k'
      · have : ¬ k' = k := by rw [← hk]; exact he
        simp [hk, this]
      · simp [hk]

theorem values_set (h : PHeap) (p q : Nat) (m : PMap) (hp : p < h.length) :
    values (h.set p m) q = if q = p then m else values h q := by
  unfold values
  by_cases e : q = p
  · subst e; simp [hp]
  · rw [if_neg e, List.getElem?_set_ne (Ne.symm e)]

theorem values_new (h : PHeap) (q : Nat) (hq : q < h.length) : values (newParams h).1 q = values h q := by
  unfold values newParams
  rw [List.getElem?_append_left hq]

/-! ### The store -/

/-- Calls that change parameters. -/
inductive Call where
  | set (k : Str) (v : Val)
  | pop (k : Str)
  | delete (k : Str)
  | deleteAll

/-- The calls in turn. -/
def calls (p : Nat) : List Call → PHeap → Res PHeap
  | [], h => .ok h
  | .set k v :: cs, h => calls p cs (set h p k v)
  | .pop k :: cs, h => calls p cs (pop h p k).1
  | .delete k :: cs, h => do
    let h' ← delete h p k
    calls p cs h'
  | .deleteAll :: cs, h => do
    let h' ← deleteAll h p
    calls p cs h'

/-- What is stored under a key after the calls, given what was there before: what was last set and not taken
away since. -/
def stored (k : Str) : List Call → Option Val → Option Val
  | [], v => v
  | .set k' w :: cs, v => stored k cs (if k = k' then some w else v)
  | .pop k' :: cs, v => stored k cs (if k = k' then none else v)
  | .delete k' :: cs, v => stored k cs (if k = k' then none else v)
  | .deleteAll :: cs, _ => stored k cs none

/-- No value is an array. -/
def NoArrays (m : PMap) : Prop := ∀ k n, mget m k ≠ some (.array n)

/-- The values set by the calls are not arrays. -/
def Plain (cs : List Call) : Prop := ∀ k n, Call.set k (.array n) ∉ cs

theorem get_plain {h : PHeap} {p : Nat} (hm : NoArrays (values h p)) (k : Str) (d : Val) : ∃ v, get h p k d = .ok v := by
  unfold get
  cases e : mget (values h p) k with
  | none => exact ⟨d, rfl⟩
  | some v =>
    cases v with
    | array n => exact absurd e (hm k n)
    | _ => exact ⟨_, rfl⟩

theorem delete_plain {h : PHeap} {p : Nat} (hm : NoArrays (values h p)) (k : Str) :
    delete h p k = .ok (h.set p (mdel (values h p) k)) := by
  obtain ⟨v, hv⟩ := get_plain hm k .nil
  rw [delete, hv]
  rfl

theorem noArrays_mdel {m : PMap} (hm : NoArrays m) (k : Str) : NoArrays (mdel m k) := by
  intro k' n h
  rw [mget_mdel] at h
  split at h
  · cases h
  · exact hm k' n h

theorem deleteLoop_plain (p : Nat) (ks : List Str) : ∀ h : PHeap, p < h.length → NoArrays (values h p) →
    ∃ m, deleteLoop p ks h = .ok (h.set p m) ∧ ∀ k, mget m k = if k ∈ ks then none else mget (values h p) k := by
  induction ks with
  | nil =>
    intro h hp _
    refine ⟨values h p, ?_, by simp⟩
    simp only [deleteLoop, values]
    rw [List.getElem?_eq_getElem hp, Option.getD_some, List.set_getElem_self]
  | cons k ks ih =>
    intro h hp hm
    have hv : values (h.set p (mdel (values h p) k)) p = mdel (values h p) k := by rw [values_set _ _ _ _ hp, if_pos rfl]
    obtain ⟨m, e1, e2⟩ := ih (h.set p (mdel (values h p) k)) (by simpa using hp) (by rw [hv]; exact noArrays_mdel hm k)
    refine ⟨m, ?_, ?_⟩
    · rw [deleteLoop, delete_plain hm, Res.bind_ok, e1, List.set_set]
    · intro k'
      rw [e2, hv, mget_mdel]
      by_cases h1 : k' ∈ ks
      · simp [h1]
      · by_cases h2 : k' = k
        · simp [h2]
        · simp [h1, h2]

theorem deleteAll_plain {p : Nat} {h : PHeap} (hp : p < h.length) (hm : NoArrays (values h p)) :
    ∃ m, deleteAll h p = .ok (h.set p m) ∧ ∀ k, mget m k = none := by
  obtain ⟨m, e1, e2⟩ := deleteLoop_plain p (keys h p) h hp hm
  refine ⟨m, e1, ?_⟩
  intro k
  rw [e2]
  split
  · rfl
  · next hk => exact mget_eq_none.mpr hk

/-- **C123.** After any calls that set no arrays, a key has the value last set and not taken away since, whatever
the maps before; and no other map has changed. -/
theorem C123_history_partial (p : Nat) (cs : List Call) : ∀ h : PHeap, p < h.length → NoArrays (values h p) → Plain cs →
    ∃ h', calls p cs h = .ok h' ∧ h'.length = h.length ∧ (∀ q, q ≠ p → values h' q = values h q) ∧
      ∀ k, mget (values h' p) k = stored k cs (mget (values h p) k) := by
  induction cs with
  | nil => intro h _ _ _; exact ⟨h, rfl, rfl, fun _ _ => rfl, fun _ => rfl⟩
  | cons c cs ih =>
    intro h hp hm hc
    have hc' : Plain cs := fun k n hk => hc k n (List.mem_cons_of_mem _ hk)
    -- one call replaces the map
    have step : ∀ m, NoArrays m → (∀ k, stored k (c :: cs) (mget (values h p) k) = stored k cs (mget m k)) →
        calls p (c :: cs) h = calls p cs (h.set p m) →
        ∃ h', calls p (c :: cs) h = .ok h' ∧ h'.length = h.length ∧ (∀ q, q ≠ p → values h' q = values h q) ∧
          ∀ k, mget (values h' p) k = stored k (c :: cs) (mget (values h p) k) := by
      intro m ha hs he
      have hv : values (h.set p m) p = m := by rw [values_set _ _ _ _ hp, if_pos rfl]
      obtain ⟨h', e1, e2, e3, e4⟩ := ih (h.set p m) (by simpa using hp) (by rw [hv]; exact ha) hc'
      refine ⟨h', by rw [he, e1], by simpa using e2, ?_, ?_⟩
      · intro q hq
        rw [e3 q hq, values_set _ _ _ _ hp, if_neg hq]
      · intro k
        rw [e4, hs, hv]
    cases c with
    | set k v =>
      refine step (mset (values h p) k v) ?_ ?_ rfl
      · intro k' n hk
        rw [mget_mset] at hk
        split at hk
        · cases hk; exact hc k n (by simp)
        · exact hm k' n hk
      · intro k'
        rw [stored, mget_mset]
    | pop k =>
      refine step (mdel (values h p) k) (noArrays_mdel hm k) ?_ ?_
      · intro k'
        rw [stored, mget_mdel]
      · rw [calls, pop]
        cases e : mget (values h p) k with
        | some v => rfl
        | none =>
          have : mdel (values h p) k = values h p := by
            unfold mdel
            rw [List.filter_eq_self]
            intro x hx
            have h1 := mget_eq_none.mp e
            simp only [bne_iff_ne, ne_eq]
            intro h2
            exact h1 (h2 ▸ List.mem_map_of_mem hx)
          rw [this]
          simp only [values]
          rw [List.getElem?_eq_getElem hp, Option.getD_some, List.set_getElem_self]
    | delete k =>
      refine step (mdel (values h p) k) (noArrays_mdel hm k) ?_ ?_
      · intro k'
        rw [stored, mget_mdel]
      · rw [calls, delete_plain hm, Res.bind_ok]
    | deleteAll =>
      obtain ⟨m, e1, e2⟩ := deleteAll_plain hp hm
      refine step m (by intro k n hk; rw [e2] at hk; cases hk) ?_ ?_
      · intro k'
        rw [stored, e2]
      · rw [calls, e1, Res.bind_ok]

/-- **C123, reading.** `Param` and `Pop` give what is stored, or nil; `Get` the default instead of a nil; `Has`
tells whether there is something that is not nil. -/
theorem C123_read_partial (h : PHeap) (p : Nat) (k : Str) (d : Val) (v : Val) (ha : ∀ n, v ≠ .array n) :
    (mget (values h p) k = some v → param h p k = v ∧ (pop h p k).2 = v ∧
      get h p k d = .ok (if v = .nil ∨ v = .typedNil then d else v) ∧
      has h p k = .ok (decide (v ≠ .nil ∧ v ≠ .typedNil))) ∧
    (mget (values h p) k = none → param h p k = .nil ∧ (pop h p k).2 = .nil ∧ get h p k d = .ok d ∧
      has h p k = .ok false) := by
  constructor
  · intro e
    refine ⟨by simp [param, e], by simp [pop, e], ?_, ?_⟩
    · simp only [get, e]
      cases v <;> first | exact absurd rfl (ha _) | simp [isNil]
    · simp only [has, e]
      cases v <;> first | exact absurd rfl (ha _) | simp [isNil]
  · intro e
    exact ⟨by simp [param, e], by simp [pop, e], by simp [get, e], by simp [has, e]⟩

/-- C123 fails for arrays: wherever one is stored, asking for it, deleting it and copying it panic. -/
theorem C123_array_violated (h : PHeap) (p : Nat) (k : Str) (n : Int) (e : mget (values h p) k = some (.array n)) :
    (∀ d, get h p k d = .panic) ∧ has h p k = .panic ∧ delete h p k = .panic ∧
      (∀ q k', copy h q p k k' = .panic) ∧ ∀ fuel, deepCopy fuel h p k = .panic := by
  have hg : ∀ d, get h p k d = .panic := by intro d; simp [get, e, isNil]
  refine ⟨hg, by simp [has, e, isNil], by simp [delete, hg], fun q k' => by simp [copy, hg], ?_⟩
  intro fuel
  cases fuel with
  | zero => rfl
  | succ f => simp [deepCopy, hg]

/-- C123 fails for keys that are not there: `Copy` and `Select` put a nil under the key, so that it is among the
keys afterwards. -/
theorem C123_missing_violated (h : PHeap) (p q : Nat) (k k' : Str) (hp : p < h.length)
    (e : mget (values h q) k = none) :
    (∃ h', copy h p q k k' = .ok h' ∧ mget (values h' p) k' = some Val.nil ∧ k' ∈ keys h' p) ∧
    (q < h.length → ∃ h' o, select h q [k] = .ok (h', o) ∧ keys h' o = [k]) := by
  constructor
  · refine ⟨set h p k' .nil, by simp [copy, get, e], ?_⟩
    have hv : values (set h p k' .nil) p = mset (values h p) k' .nil := by
      rw [set, values_set _ _ _ _ hp, if_pos rfl]
    refine ⟨by rw [hv]; simp, ?_⟩
    rw [keys, hv]
    exact List.mem_map.mpr ⟨_, mem_of_mget (mget_mset_self _ k' Val.nil), rfl⟩
  · intro hq
    refine ⟨set (newParams h).1 (newParams h).2 k .nil, (newParams h).2, ?_, ?_⟩
    · have : get (newParams h).1 q k .nil = .ok .nil := by simp [get, values_new h q hq, e]
      simp [select, selectLoop, this]
    · rw [keys, set, values_set _ _ _ _ (by simp [newParams]), if_pos rfl]
      simp [values, newParams, mset]

/-! ### Clones -/

/-- The value is nested at most `n` deep, without arrays; its parameters exist. -/
def Nested : Nat → PHeap → Val → Prop
  | _, _, .array _ => False
  | 0, _, .params _ => False
  | n + 1, h, .params p => p < h.length ∧ ∀ k x, mget (values h p) k = some x → Nested n h x
  | _, _, _ => True

/-- The second value shows what the first shows, down to the depth `n`: the same keys with the same values, nil for
nil. -/
def Same : Nat → PHeap → Val → PHeap → Val → Prop
  | n + 1, h, .params p, h', .params p' =>
    (∀ k, mget (values h p) k = none ↔ mget (values h' p') k = none) ∧
    ∀ k x y, mget (values h p) k = some x → mget (values h' p') k = some y → Same n h x h' y
  | _, _, .typedNil, _, .nil => True
  | _, _, .params _, _, _ => False
  | _, _, v, _, v' => v = v'

theorem nested_ext {n : Nat} : ∀ {h h' : PHeap} {v : Val}, (∀ q, q < h.length → q < h'.length ∧ values h' q = values h q) →
    Nested n h v → Nested n h' v := by
  induction n with
  | zero => intro h h' v _ hn; cases v <;> first | exact hn | trivial
  | succ n ih =>
    intro h h' v he hn
    cases v with
    | params p =>
      obtain ⟨h1, h2⟩ := hn
      refine ⟨(he p h1).1, ?_⟩
      intro k x hx
      rw [(he p h1).2] at hx
      exact ih he (h2 k x hx)
    | array _ => exact hn
    | _ => trivial

/-- Changes of the maps before `base` are not seen from the value. -/
def Apart (base n : Nat) (h : PHeap) (v : Val) (h' : PHeap) (v' : Val) : Prop :=
  ∀ h'' : PHeap, h'.length ≤ h''.length → (∀ q, base ≤ q → q < h'.length → values h'' q = values h' q) → Same n h v h'' v'

/-- What copying does to the heap: the old maps stay as they are. -/
def Grows (h h' : PHeap) : Prop := h.length ≤ h'.length ∧ ∀ q, q < h.length → values h' q = values h q

theorem grows_trans {a b c : PHeap} (h1 : Grows a b) (h2 : Grows b c) : Grows a c :=
  ⟨Nat.le_trans h1.1 h2.1, fun q hq => (h2.2 q (Nat.lt_of_lt_of_le hq h1.1)).trans (h1.2 q hq)⟩

theorem nested_same_values {n : Nat} : ∀ {h h0 : PHeap} {v : Val} {h' : PHeap} {v' : Val},
    (∀ q, q < h0.length → q < h.length ∧ values h q = values h0 q) → Nested n h0 v → Same n h v h' v' → Same n h0 v h' v' := by
  induction n with
  | zero =>
    intro h h0 v h' v' _ hn hs
    cases v <;> cases v' <;> first | exact hn.elim | exact hs
  | succ n ih =>
    intro h h0 v h' v' he hn hs
    cases v with
    | params p =>
      cases v' with
      | params p' =>
        obtain ⟨h1, h2⟩ := hn
        obtain ⟨s1, s2⟩ := hs
        refine ⟨?_, ?_⟩
        · intro k; rw [← s1 k, (he p h1).2]
        · intro k x y hx hy
          exact ih he (h2 k x hx) (s2 k x y (by rw [(he p h1).2]; exact hx) hy)
      | _ => exact hs
    | array _ => exact hn.elim
    | _ => cases v' <;> exact hs

theorem same_self (n : Nat) (h h' : PHeap) (v : Val) (hn : ∀ p, v ≠ .params p) (ht : v ≠ .typedNil) : Same n h v h' v := by
  cases v <;> first | exact absurd rfl (hn _) | exact absurd rfl ht | (cases n <;> simp [Same])

/-- The loop: every parameter of `q` has its copy in `o`, and the other maps stay as they are. -/
theorem copyAll_ok {n : Nat} {step : PHeap → Nat → Str → Res (PHeap × Val)} {h0 : PHeap} {q o : Nat} (ho : h0.length ≤ o)
    (hstep : ∀ h k x, Grows h0 h → mget (values h0 q) k = some x → ∃ h' v, step h q k = .ok (h', v) ∧ Grows h h' ∧
      Apart h.length n h0 x h' v) (ks : List Str) :
    ∀ h : PHeap, Grows h0 h → o < h.length → (∀ k ∈ ks, ∃ x, mget (values h0 q) k = some x) →
      ∃ h', copyAll step q o ks h = .ok h' ∧ h.length ≤ h'.length ∧
        (∀ j, j < h.length → j ≠ o → values h' j = values h j) ∧
        (∀ k, k ∉ ks → mget (values h' o) k = mget (values h o) k) ∧
        ∀ k ∈ ks, ∃ x v, mget (values h0 q) k = some x ∧ mget (values h' o) k = some v ∧ Apart h.length n h0 x h' v := by
  induction ks with
  | nil => intro h _ _ _; exact ⟨h, rfl, Nat.le_refl _, fun _ _ _ => rfl, fun _ _ => rfl, by simp⟩
  | cons k ks ih =>
    intro h hg ho' hks
    obtain ⟨x, hx⟩ := hks k (by simp)
    obtain ⟨h1, v, e1, g1, a1⟩ := hstep h k x hg hx
    have ho1 : o < h1.length := Nat.lt_of_lt_of_le ho' g1.1
    have hset : ∀ j, values (set h1 o k v) j = if j = o then mset (values h1 o) k v else values h1 j :=
      fun j => values_set _ _ _ _ ho1
    have hlen : (set h1 o k v).length = h1.length := by simp [set]
    have g2 : Grows h0 (set h1 o k v) := by
      refine ⟨by rw [hlen]; exact Nat.le_trans hg.1 g1.1, ?_⟩
      intro j hj
      rw [hset, if_neg (by omega), g1.2 j (Nat.lt_of_lt_of_le hj hg.1), hg.2 j hj]
    obtain ⟨h', f1, f2, f3, f4, f5⟩ := ih (set h1 o k v) g2 (by rw [hlen]; exact ho1) (fun k hk => hks k (by simp [hk]))
    rw [hlen] at f2 f3 f5
    refine ⟨h', by rw [copyAll, e1, Res.bind_ok]; exact f1, Nat.le_trans g1.1 f2, ?_, ?_, ?_⟩
    · intro j hj hjo
      rw [f3 j (Nat.lt_of_lt_of_le hj g1.1) hjo, hset, if_neg hjo, g1.2 j hj]
    · intro k' hk'
      rw [List.mem_cons, not_or] at hk'
      rw [f4 k' hk'.2, hset, if_pos rfl, mget_mset_ne _ _ _ _ hk'.1, g1.2 o ho']
    · intro k' hk'
      by_cases hin : k' ∈ ks
      · obtain ⟨x', v', i1, i2, i3⟩ := f5 k' hin
        refine ⟨x', v', i1, i2, ?_⟩
        intro h'' l1 l2
        exact i3 h'' l1 (fun j b1 b2 => l2 j (Nat.le_trans g1.1 b1) b2)
      · have hkk : k' = k := by
          rcases List.mem_cons.mp hk' with h | h
          · exact h
          · exact absurd h hin
        subst hkk
        refine ⟨x, v, hx, by rw [f4 k' hin, hset, if_pos rfl, mget_mset_self], ?_⟩
        intro h'' l1 l2
        refine a1 h'' (Nat.le_trans f2 l1) ?_
        intro j b1 b2
        have hjo : j ≠ o := by omega
        rw [l2 j b1 (Nat.lt_of_lt_of_le b2 f2), f3 j b2 hjo, hset, if_neg hjo]

theorem grows_new (h : PHeap) : Grows h (newParams h).1 :=
  ⟨by simp [newParams], fun q hq => values_new h q hq⟩

/-- Copying all parameters of `p` to new ones. -/
theorem copyParams_ok {n : Nat} {step : PHeap → Nat → Str → Res (PHeap × Val)} {h : PHeap} {p : Nat}
    (hstep : ∀ h' k x, Grows h h' → mget (values h p) k = some x → ∃ h'' v, step h' p k = .ok (h'', v) ∧ Grows h' h'' ∧
      Apart h'.length n h x h'' v) :
    ∃ h', copyAll step p (newParams h).2 ((values h p).map (·.1)) (newParams h).1 = .ok h' ∧ Grows h h' ∧
      h.length < h'.length ∧ Apart h.length (n + 1) h (.params p) h' (.params (newParams h).2) := by
  have hnew : (newParams h).1.length = h.length + 1 := by simp [newParams]
  have ho : (newParams h).2 = h.length := rfl
  obtain ⟨h', f1, f2, f3, f4, f5⟩ := copyAll_ok (o := (newParams h).2) (by rw [ho]; exact Nat.le_refl _) hstep ((values h p).map (·.1))
    (newParams h).1 (grows_new h) (by rw [hnew, ho]; omega) (by
      intro k hk
      cases e : mget (values h p) k with
      | some x => exact ⟨x, rfl⟩
      | none => exact absurd hk (mget_eq_none.mp e))
  rw [hnew] at f2 f3 f5
  refine ⟨h', f1, ⟨by omega, ?_⟩, by omega, ?_⟩
  · intro q hq
    rw [f3 q (by omega) (by rw [ho]; omega), values_new h q hq]
  · intro h'' l1 l2
    have ho'' : values h'' (newParams h).2 = values h' (newParams h).2 := l2 _ (by rw [ho]; exact Nat.le_refl _) (by rw [ho]; omega)
    have hempty : values (newParams h).1 (newParams h).2 = [] := by simp [values, newParams]
    refine ⟨?_, ?_⟩
    · intro k
      rw [ho'']
      by_cases hk : k ∈ (values h p).map (·.1)
      · obtain ⟨x, v, i1, i2, _⟩ := f5 k hk
        rw [i1, i2]
        simp
      · rw [f4 k hk, hempty, mget_eq_none.mpr hk]
        simp
    · intro k x y hx hy
      rw [ho''] at hy
      have hk : k ∈ (values h p).map (·.1) := List.mem_map.mpr ⟨_, mem_of_mget hx, rfl⟩
      obtain ⟨x', v, i1, i2, i3⟩ := f5 k hk
      rw [hx] at i1
      rw [hy] at i2
      cases i1
      cases i2
      exact i3 h'' l1 (fun j b1 b2 => l2 j (by omega) b2)

theorem deepCopy_ok (n : Nat) : ∀ (h : PHeap) (p : Nat) (k : Str) (x : Val), mget (values h p) k = some x → Nested n h x →
    ∃ h' v, deepCopy (n + 1) h p k = .ok (h', v) ∧ Grows h h' ∧ Apart h.length n h x h' v := by
  induction n with
  | zero =>
    intro h p k x hx hn
    have grows : Grows h h := ⟨Nat.le_refl _, fun _ _ => rfl⟩
    cases x with
    | array _ => exact hn.elim
    | params _ => exact hn.elim
    | nil => exact ⟨h, .nil, by simp [deepCopy, get, hx, isNil], grows, fun h'' _ _ => same_self _ _ _ _ (by simp) (by simp)⟩
    | typedNil => exact ⟨h, .nil, by simp [deepCopy, get, hx, isNil], grows, fun _ _ _ => trivial⟩
    | data d => exact ⟨h, .data d, by simp [deepCopy, get, hx, isNil], grows, fun h'' _ _ => same_self _ _ _ _ (by simp) (by simp)⟩
    | map i => exact ⟨h, .map i, by simp [deepCopy, get, hx, isNil], grows, fun h'' _ _ => same_self _ _ _ _ (by simp) (by simp)⟩
  | succ n ih =>
    intro h p k x hx hn
    have grows : Grows h h := ⟨Nat.le_refl _, fun _ _ => rfl⟩
    cases x with
    | array _ => exact hn.elim
    | nil => exact ⟨h, .nil, by simp [deepCopy, get, hx, isNil], grows, fun h'' _ _ => same_self _ _ _ _ (by simp) (by simp)⟩
    | typedNil => exact ⟨h, .nil, by simp [deepCopy, get, hx, isNil], grows, fun _ _ _ => trivial⟩
    | data d => exact ⟨h, .data d, by simp [deepCopy, get, hx, isNil], grows, fun h'' _ _ => same_self _ _ _ _ (by simp) (by simp)⟩
    | map i => exact ⟨h, .map i, by simp [deepCopy, get, hx, isNil], grows, fun h'' _ _ => same_self _ _ _ _ (by simp) (by simp)⟩
    | params q =>
      obtain ⟨hq, hsub⟩ := hn
      obtain ⟨h', f1, f2, f3, f4⟩ := copyParams_ok (n := n) (step := deepCopy (n + 1)) (p := q) (by
        intro h1 k' x hg hx
        have hext : ∀ j, j < h.length → j < h1.length ∧ values h1 j = values h j :=
          fun j hj => ⟨Nat.lt_of_lt_of_le hj hg.1, hg.2 j hj⟩
        obtain ⟨h2, v, g1, g2, g3⟩ := ih h1 q k' x (by rw [hg.2 q hq]; exact hx) (nested_ext hext (hsub k' x hx))
        exact ⟨h2, v, g1, g2, fun h'' l1 l2 => nested_same_values hext (hsub k' x hx) (g3 h'' l1 l2)⟩)
      refine ⟨h', .params (newParams h).2, ?_, f2, f4⟩
      rw [deepCopy]
      simp [get, hx, isNil, f1]

/-- **C123, clones.** The clone of parameters nested at most `n` deep shows what they show, now and after any
changes of the maps that were there before: the ones below are copied too. -/
theorem C123_clone_partial (n : Nat) (h : PHeap) (p : Nat) (hn : Nested (n + 1) h (.params p)) :
    ∃ h' q, clone (n + 1) h p = .ok (h', q) ∧ (∀ j, j < h.length → values h' j = values h j) ∧ h.length ≤ q ∧
      ∀ h'' : PHeap, h'.length ≤ h''.length → (∀ j, h.length ≤ j → j < h'.length → values h'' j = values h' j) →
        Same (n + 1) h (.params p) h'' (.params q) := by
  obtain ⟨hp, hsub⟩ := hn
  obtain ⟨h', f1, f2, f3, f4⟩ := copyParams_ok (n := n) (step := deepCopy (n + 1)) (p := p) (by
    intro h1 k' x hg hx
    have hext : ∀ j, j < h.length → j < h1.length ∧ values h1 j = values h j :=
      fun j hj => ⟨Nat.lt_of_lt_of_le hj hg.1, hg.2 j hj⟩
    obtain ⟨h2, v, g1, g2, g3⟩ := deepCopy_ok n h1 p k' x (by rw [hg.2 p hp]; exact hx) (nested_ext hext (hsub k' x hx))
    exact ⟨h2, v, g1, g2, fun h'' l1 l2 => nested_same_values hext (hsub k' x hx) (g3 h'' l1 l2)⟩)
  exact ⟨h', (newParams h).2, by rw [clone, f1]; rfl, f2.2, Nat.le_refl _, f4⟩

/-- C123 fails for maps within parameters: the clone has the same map, not a copy, so what is set in it is seen from
the clone. -/
theorem C123_clone_map_violated (n : Nat) (h : PHeap) (p : Nat) (hn : Nested (n + 1) h (.params p)) (k : Str) (i : Nat)
    (hk : mget (values h p) k = some (.map i)) (hi : i < h.length) :
    ∃ h' q, clone (n + 1) h p = .ok (h', q) ∧ param h' q k = .map i ∧
      ∀ k' v, mget (values (set h' i k' v) i) k' = some v := by
  obtain ⟨h', q, e1, e2, e3, e4⟩ := C123_clone_partial n h p hn
  have hl : h.length ≤ h'.length := by
    rcases Nat.lt_or_ge h'.length h.length with hlt | hge
    · exfalso
      have hs := e4 (h' ++ List.replicate (h.length - h'.length) []) (by simp) (fun j b1 b2 => by omega)
      obtain ⟨s1, _⟩ := hs
      have hq : values (h' ++ List.replicate (h.length - h'.length) []) q = [] := by
        unfold values
        rw [List.getElem?_append_right (by omega), List.getElem?_eq_none (by simp; omega)]
        rfl
      have := (s1 k).mpr (by rw [hq]; rfl)
      rw [hk] at this
      cases this
    · exact hge
  obtain ⟨s1, s2⟩ := e4 h' (Nat.le_refl _) (fun _ _ _ => rfl)
  refine ⟨h', q, e1, ?_, ?_⟩
  · cases hv : mget (values h' q) k with
    | none => rw [(s1 k).mpr hv] at hk; cases hk
    | some y =>
      have := s2 k _ _ hk hv
      cases n <;> cases y <;> simp [Same] at this <;> simp [param, hv, this]
  · intro k' v
    rw [set, values_set _ _ _ _ (by omega), if_pos rfl, mget_mset_self]

theorem copyAll_res {step : PHeap → Nat → Str → Res (PHeap × Val)} {h0 : PHeap} {q o : Nat} (ho : h0.length ≤ o)
    (hstep : ∀ h k, step h q k = .panic ∨ ∃ h' v, step h q k = .ok (h', v) ∧ Grows h h') (ks : List Str) :
    ∀ h : PHeap, Grows h0 h → o < h.length →
      copyAll step q o ks h = .panic ∨ ∃ h', copyAll step q o ks h = .ok h' ∧ Grows h0 h' := by
  induction ks with
  | nil => intro h hg _; exact .inr ⟨h, rfl, hg⟩
  | cons k ks ih =>
    intro h hg ho'
    rcases hstep h k with e | ⟨h1, v, e, g1⟩
    · left; rw [copyAll, e]; rfl
    · rw [copyAll, e, Res.bind_ok]
      refine ih _ ⟨by simp only [set, List.length_set]; exact Nat.le_trans hg.1 g1.1, ?_⟩ (by simp only [set, List.length_set]; exact Nat.lt_of_lt_of_le ho' g1.1)
      intro j hj
      rw [set, values_set _ _ _ _ (Nat.lt_of_lt_of_le ho' g1.1), if_neg (by omega), g1.2 j (Nat.lt_of_lt_of_le hj hg.1), hg.2 j hj]

theorem deepCopy_res (fuel : Nat) : ∀ (h : PHeap) (p : Nat) (k : Str), deepCopy fuel h p k = .panic ∨
    ∃ h' v, deepCopy fuel h p k = .ok (h', v) ∧ Grows h h' := by
  induction fuel with
  | zero => intro h p k; exact .inl rfl
  | succ f ih =>
    intro h p k
    have grows : Grows h h := ⟨Nat.le_refl _, fun _ _ => rfl⟩
    rw [deepCopy]
    cases hg : get h p k .nil with
    | panic => left; rfl
    | err =>
      exfalso
      unfold get at hg
      split at hg
      · cases hg
      · next v _ => cases v <;> simp [isNil] at hg
    | ok v =>
      rw [Res.bind_ok]
      cases v with
      | params q =>
        rcases copyAll_res (h0 := h) (o := (newParams h).2) (Nat.le_refl _) (fun h' k' => ih h' q k')
          ((values h q).map (·.1)) (newParams h).1 (grows_new h) (by simp [newParams]) with e | ⟨h', e, g⟩
        · left; simp only [e]; rfl
        · right; exact ⟨h', _, by simp only [e]; rfl, g⟩
      | _ => right; exact ⟨h, _, rfl, grows⟩

theorem copyAll_panics {step : PHeap → Nat → Str → Res (PHeap × Val)} {h0 : PHeap} {q o : Nat} (ho : h0.length ≤ o)
    (hstep : ∀ h k, step h q k = .panic ∨ ∃ h' v, step h q k = .ok (h', v) ∧ Grows h h') {k : Str}
    (hk : ∀ h, Grows h0 h → step h q k = .panic) (ks : List Str) :
    ∀ h : PHeap, Grows h0 h → o < h.length → k ∈ ks → copyAll step q o ks h = .panic := by
  induction ks with
  | nil => intro h _ _ hin; cases hin
  | cons k' ks ih =>
    intro h hg ho' hin
    rcases hstep h k' with e | ⟨h1, v, e, g1⟩
    · rw [copyAll, e]; rfl
    · have hin' : k ∈ ks := by
        rcases List.mem_cons.mp hin with rfl | hin
        · rw [hk h hg] at e; cases e
        · exact hin
      rw [copyAll, e, Res.bind_ok]
      refine ih _ ⟨by simp only [set, List.length_set]; exact Nat.le_trans hg.1 g1.1, ?_⟩ (by simp only [set, List.length_set]; exact Nat.lt_of_lt_of_le ho' g1.1) hin'
      intro j hj
      rw [set, values_set _ _ _ _ (Nat.lt_of_lt_of_le ho' g1.1), if_neg (by omega), g1.2 j (Nat.lt_of_lt_of_le hj hg.1), hg.2 j hj]

/-- C123 fails for parameters that have themselves as a value: cloning them has no end, whatever the room for the
stack. -/
theorem C123_clone_cycle_violated (h : PHeap) (p : Nat) (hp : p < h.length) (k : Str)
    (hk : mget (values h p) k = some (.params p)) (fuel : Nat) : clone fuel h p = .panic := by
  have hin : k ∈ (values h p).map (·.1) := List.mem_map.mpr ⟨_, mem_of_mget hk, rfl⟩
  have key : ∀ fuel (h' : PHeap), Grows h h' → deepCopy fuel h' p k = .panic := by
    intro fuel
    induction fuel with
    | zero => intro h' _; rfl
    | succ f ih =>
      intro h' hg
      have hv : values h' p = values h p := hg.2 p hp
      have := copyAll_panics (h0 := h') (o := (newParams h').2) (q := p) (Nat.le_refl _) (fun a b => deepCopy_res f a p b)
        (k := k) (fun a ha => ih a (grows_trans hg ha)) ((values h' p).map (·.1)) (newParams h').1 (grows_new h')
        (by simp [newParams]) (by rw [hv]; exact hin)
      rw [deepCopy]
      simp [get, hv, hk, isNil]
      rw [hv] at this
      simp [this]
  have := copyAll_panics (h0 := h) (o := (newParams h).2) (q := p) (Nat.le_refl _) (fun a b => deepCopy_res fuel a p b)
    (k := k) (fun a ha => key fuel a ha) ((values h p).map (·.1)) (newParams h).1 (grows_new h) (by simp [newParams]) hin
  rw [clone, this]
  rfl

/-! ### Cases -/

/-- A map, and parameters with a number, parameters below that have the map, and a nil pointer. -/
def exHeap : PHeap :=
  [[("x".toList, .data 1)], [("m".toList, .map 0)], [("a".toList, .data 5), ("b".toList, .params 1), ("c".toList, .typedNil)]]

example : Nested 2 exHeap (.params 2) := by
  refine ⟨by decide, ?_⟩
  intro k x hx
  have hm := mem_of_mget hx
  simp only [exHeap, values, List.getElem?_cons_succ, List.getElem?_cons_zero, Option.getD_some, List.mem_cons,
    Prod.mk.injEq, List.not_mem_nil, or_false] at hm
  rcases hm with ⟨_, rfl⟩ | ⟨_, rfl⟩ | ⟨_, rfl⟩
  · trivial
  · refine ⟨by decide, ?_⟩
    intro k x hx
    have hm := mem_of_mget hx
    simp only [exHeap, values, List.getElem?_cons_succ, List.getElem?_cons_zero, Option.getD_some, List.mem_cons,
      Prod.mk.injEq, List.not_mem_nil, or_false] at hm
    obtain ⟨_, rfl⟩ := hm
    trivial
  · trivial

example : clone 2 exHeap 2 = .ok (exHeap ++
    [[("a".toList, .data 5), ("b".toList, .params 4), ("c".toList, .nil)], [("m".toList, .map 0)]], 3) := by decide

example : calls 2 [.set "a".toList (.data 6), .pop "b".toList, .set "d".toList (.data 7), .delete "c".toList] exHeap =
    .ok [[("x".toList, .data 1)], [("m".toList, .map 0)], [("a".toList, .data 6), ("d".toList, .data 7)]] := by decide

end Tok.Params
