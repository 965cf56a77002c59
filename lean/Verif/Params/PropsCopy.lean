import Verif.Params.Props

/-!
# C123: copies of single parameters, selections, options, and the number of parameters
-/

namespace Tok.Params

/-- What `Get` without a default shows of a stored value: every nil is the plain nil. -/
def shown : Option Val → Val
  | none => .nil
  | some .typedNil => .nil
  | some v => v

theorem get_shown {h : PHeap} {p : Nat} {k : Str} (ha : ∀ n, mget (values h p) k ≠ some (.array n)) :
    get h p k .nil = .ok (shown (mget (values h p) k)) := by
  unfold get
  cases e : mget (values h p) k with
  | none => rfl
  | some v => cases v <;> first | exact absurd e (ha _) | rfl

/-- **C123, Copy.** The parameter is there under its new key, and nothing else changes. -/
theorem C123_copy_partial (h : PHeap) (p q : Nat) (k newKey : Str) (hp : p < h.length)
    (ha : ∀ n, mget (values h q) k ≠ some (.array n)) :
    ∃ h', copy h p q k newKey = .ok h' ∧ h'.length = h.length ∧ (∀ j, j ≠ p → values h' j = values h j) ∧
      ∀ k', mget (values h' p) k' = if k' = newKey then some (shown (mget (values h q) k)) else mget (values h p) k' := by
  have hv : ∀ v j, values (set h p newKey v) j = if j = p then mset (values h p) newKey v else values h j :=
    fun v j => by rw [set, values_set _ _ _ _ hp]
  refine ⟨set h p newKey (shown (mget (values h q) k)), by rw [copy, get_shown ha]; rfl, by simp [set], ?_, ?_⟩
  · intro j hj; rw [hv, if_neg hj]
  · intro k'
    rw [hv, if_pos rfl]
    split
    · next e => rw [e, mget_mset_self]
    · next e => rw [mget_mset_ne _ _ _ _ e]

theorem selectLoop_ok (p o : Nat) (hpo : p ≠ o) (ks : List Str) : ∀ h : PHeap, o < h.length → NoArrays (values h p) →
    ∃ h', selectLoop p o ks h = .ok h' ∧ h'.length = h.length ∧ (∀ j, j ≠ o → values h' j = values h j) ∧
      ∀ k, mget (values h' o) k = if k ∈ ks then some (shown (mget (values h p) k)) else mget (values h o) k := by
  induction ks with
  | nil => intro h _ _; exact ⟨h, rfl, rfl, fun _ _ => rfl, by simp⟩
  | cons k ks ih =>
    intro h ho hm
    have hv : ∀ v j, values (set h o k v) j = if j = o then mset (values h o) k v else values h j :=
      fun v j => by rw [set, values_set _ _ _ _ ho]
    obtain ⟨h', e1, e2, e3, e4⟩ := ih (set h o k (shown (mget (values h p) k))) (by simpa [set] using ho)
      (by rw [hv, if_neg hpo]; exact hm)
    refine ⟨h', by rw [selectLoop, get_shown (hm k), Res.bind_ok, e1], by rw [e2]; simp [set], ?_, ?_⟩
    · intro j hj; rw [e3 j hj, hv, if_neg hj]
    · intro k'
      rw [e4, hv, if_neg hpo, hv, if_pos rfl]
      by_cases h1 : k' ∈ ks
      · simp [h1]
      · by_cases h2 : k' = k
        · subst h2; simp [h1, mget_mset_self]
        · simp [h1, h2, mget_mset_ne _ _ _ _ h2]

/-- **C123, Select.** The selection is new and has exactly the keys asked for, with what `Get` gives for them; the
parameters themselves do not change. -/
theorem C123_select_partial (h : PHeap) (p : Nat) (ks : List Str) (hp : p < h.length) (hm : NoArrays (values h p)) :
    ∃ h' o, select h p ks = .ok (h', o) ∧ h.length ≤ o ∧ (∀ j, j < h.length → values h' j = values h j) ∧
      ∀ k, mget (values h' o) k = if k ∈ ks then some (shown (mget (values h p) k)) else none := by
  have hpo : p ≠ (newParams h).2 := Nat.ne_of_lt hp
  obtain ⟨h', e1, e2, e3, e4⟩ := selectLoop_ok p (newParams h).2 hpo ks (newParams h).1 (by simp [newParams])
    (by rw [values_new h p hp]; exact hm)
  refine ⟨h', (newParams h).2, by rw [select, e1]; rfl, Nat.le_refl _, ?_, ?_⟩
  · intro j hj
    rw [e3 j (Nat.ne_of_lt hj), values_new h j hj]
  · intro k
    rw [e4, values_new h p hp, show values (newParams h).1 (newParams h).2 = [] by simp [values, newParams]]
    rfl

/-- **C123, DeepCopy.** A parameter nested at most `n` deep is there under its new key and shows what it showed, now
and after any later change of the maps that were there before, other than that of the key itself. -/
theorem C123_deepcopy_partial (n : Nat) (h : PHeap) (p q : Nat) (k newKey : Str) (x : Val) (hp : p < h.length)
    (hx : mget (values h q) k = some x) (hn : Nested n h x) :
    ∃ h' v, deepCopyTo (n + 1) h p q k newKey = .ok h' ∧ mget (values h' p) newKey = some v ∧
      (∀ j, j < h.length → j ≠ p → values h' j = values h j) ∧
      (∀ k', k' ≠ newKey → mget (values h' p) k' = mget (values h p) k') ∧
      ∀ h'' : PHeap, h'.length ≤ h''.length → (∀ j, h.length ≤ j → j < h'.length → values h'' j = values h' j) →
        Same n h x h'' v := by
  obtain ⟨h1, v, e1, e2, e3⟩ := deepCopy_ok n h q k x hx hn
  have hp1 : p < h1.length := Nat.lt_of_lt_of_le hp e2.1
  have hv : ∀ j, values (set h1 p newKey v) j = if j = p then mset (values h1 p) newKey v else values h1 j :=
    fun j => by rw [set, values_set _ _ _ _ hp1]
  have hlen : (set h1 p newKey v).length = h1.length := by simp [set]
  refine ⟨set h1 p newKey v, v, by rw [deepCopyTo, e1]; rfl, by rw [hv, if_pos rfl, mget_mset_self], ?_, ?_, ?_⟩
  · intro j hj hjp; rw [hv, if_neg hjp, e2.2 j hj]
  · intro k' hk'; rw [hv, if_pos rfl, mget_mset_ne _ _ _ _ hk', e2.2 p hp]
  · intro h'' l1 l2
    rw [hlen] at l1 l2
    refine e3 h'' l1 (fun j b1 b2 => ?_)
    rw [l2 j b1 b2, hv, if_neg (by omega)]

theorem foldl_set (q : Nat) (es : PMap) : ∀ h : PHeap, q < h.length → (es.map (·.1)).Nodup →
    (es.foldl (fun h e => set h q e.1 e.2) h).length = h.length ∧
    (∀ j, j ≠ q → values (es.foldl (fun h e => set h q e.1 e.2) h) j = values h j) ∧
    ∀ k, mget (values (es.foldl (fun h e => set h q e.1 e.2) h) q) k = (mget es k).or (mget (values h q) k) := by
  induction es with
  | nil => intro h _ _; exact ⟨rfl, fun _ _ => rfl, fun k => by simp⟩
  | cons e es ih =>
    intro h hq hn
    rw [List.map_cons, List.nodup_cons] at hn
    have hv : ∀ j, values (set h q e.1 e.2) j = if j = q then mset (values h q) e.1 e.2 else values h j :=
      fun j => by rw [set, values_set _ _ _ _ hq]
    obtain ⟨i1, i2, i3⟩ := ih (set h q e.1 e.2) (by simpa [set] using hq) hn.2
    rw [List.foldl_cons]
    refine ⟨by rw [i1]; simp [set], fun j hj => by rw [i2 j hj, hv, if_neg hj], fun k => ?_⟩
    rw [i3, hv, if_pos rfl]
    by_cases hk : e.1 = k
    · subst hk
      rw [mget_eq_none.mpr hn.1, mget_mset_self]
      simp [mget]
    · rw [mget_mset_ne _ _ _ _ (Ne.symm hk)]
      simp [mget, hk]

/-- **C123, WithParams.** The options made of parameters give all of them to other parameters, in whatever order the
map is visited; keys that they do not have keep their values. -/
theorem C123_options (h : PHeap) (p q : Nat) (hq : q < h.length) (hk : (keys h p).Nodup) :
    (∀ j, j ≠ q → values (withParams h p q) j = values h j) ∧
    ∀ k, mget (values (withParams h p q) q) k = (mget (values h p) k).or (mget (values h q) k) := by
  obtain ⟨_, h2, h3⟩ := foldl_set q (values h p) h hq hk
  exact ⟨h2, h3⟩

theorem keys_mset (m : PMap) (k : Str) (v : Val) (hn : (m.map (·.1)).Nodup) : ((mset m k v).map (·.1)).Nodup := by
  induction m with
  | nil => simp [mset]
  | cons e m ih =>
    rw [List.map_cons, List.nodup_cons] at hn
    unfold mset
    split
    · next hk => rw [beq_iff_eq] at hk; rw [List.map_cons, List.nodup_cons]; exact ⟨hk ▸ hn.1, hn.2⟩
    · next hk =>
      rw [List.map_cons, List.nodup_cons]
      refine ⟨?_, ih hn.2⟩
      rw [← mget_eq_none, mget_mset_ne _ _ _ _ (by simpa using hk), mget_eq_none]
      exact hn.1

theorem keys_mdel (m : PMap) (k : Str) (hn : (m.map (·.1)).Nodup) : ((mdel m k).map (·.1)).Nodup :=
  hn.sublist ((List.filter_sublist).map _)

/-- **C123, Keys and Len.** After any calls, `Keys` gives each key that has a value once, and `Len` says how many
there are. -/
theorem C123_keys_partial (p : Nat) (cs : List Call) (h : PHeap) (hp : p < h.length) (hm : NoArrays (values h p))
    (hc : Plain cs) (hk : (keys h p).Nodup) (h' : PHeap) (e : calls p cs h = .ok h') :
    (keys h' p).Nodup ∧ (∀ k, k ∈ keys h' p ↔ stored k cs (mget (values h p) k) ≠ none) ∧ len h' p = (keys h' p).length := by
  refine ⟨?_, ?_, by simp [len, keys]⟩
  · clear hm hc
    have hdel : ∀ (h h1 : PHeap) (k : Str), p < h.length → (keys h p).Nodup → delete h p k = .ok h1 →
        p < h1.length ∧ (keys h1 p).Nodup := by
      intro h h1 k hp hk e
      unfold delete at e
      obtain ⟨_, _, e⟩ := Res.bind_eq_ok.mp e
      cases e
      refine ⟨by simpa using hp, ?_⟩
      rw [keys, values_set _ _ _ _ hp, if_pos rfl]
      exact keys_mdel _ _ hk
    have hall : ∀ (ks : List Str) (h h1 : PHeap), p < h.length → (keys h p).Nodup → deleteLoop p ks h = .ok h1 →
        p < h1.length ∧ (keys h1 p).Nodup := by
      intro ks
      induction ks with
      | nil => intro h h1 hp hk e; cases e; exact ⟨hp, hk⟩
      | cons k ks ih =>
        intro h h1 hp hk e
        obtain ⟨h2, e1, e2⟩ := Res.bind_eq_ok.mp e
        obtain ⟨a, b⟩ := hdel h h2 k hp hk e1
        exact ih h2 h1 a b e2
    induction cs generalizing h with
    | nil => cases e; exact hk
    | cons c cs ih =>
      cases c with
      | set k v =>
        refine ih (set h p k v) (by simpa [set] using hp) ?_ e
        rw [keys, set, values_set _ _ _ _ hp, if_pos rfl]
        exact keys_mset _ _ _ hk
      | pop k =>
        refine ih (pop h p k).1 ?_ ?_ e
        · unfold pop; split
          · simpa using hp
          · exact hp
        · unfold pop; split
          · rw [keys, values_set _ _ _ _ hp, if_pos rfl]; exact keys_mdel _ _ hk
          · exact hk
      | delete k =>
        obtain ⟨h1, e1, e2⟩ := Res.bind_eq_ok.mp e
        obtain ⟨a, b⟩ := hdel h h1 k hp hk e1
        exact ih h1 a b e2
      | deleteAll =>
        obtain ⟨h1, e1, e2⟩ := Res.bind_eq_ok.mp e
        obtain ⟨a, b⟩ := hall _ h h1 hp hk e1
        exact ih h1 a b e2
  · intro k
    obtain ⟨h1, e1, _, _, e2⟩ := C123_history_partial p cs h hp hm hc
    rw [e] at e1
    cases e1
    rw [← e2, ne_eq, mget_eq_none, Classical.not_not]
    rfl

/-! ### Cases -/

/-- Parameters with a number and with parameters within. -/
def nestedHeap : PHeap := [[(['a'], .data 1), (['b'], .params 1)], [(['c'], .data 2)], []]

example : Nested 1 nestedHeap (.params 1) := by
  refine ⟨by decide, ?_⟩
  intro k x hx
  have : values nestedHeap 1 = [(['c'], .data 2)] := rfl
  rw [this] at hx
  unfold mget at hx
  split at hx
  · cases hx; trivial
  · cases hx

example : (keys nestedHeap 0).Nodup ∧ mget (values nestedHeap 0) ['b'] = some (.params 1) := by decide +kernel

example : ∃ h' o, select nestedHeap 0 [['a'], ['z']] = .ok (h', o) ∧ values h' o = [(['a'], .data 1), (['z'], Val.nil)] :=
  ⟨_, _, rfl, by decide +kernel⟩

end Tok.Params
