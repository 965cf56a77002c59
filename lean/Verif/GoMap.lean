/-!
# Go maps

A Go map is an association list: `mget` reads, `mset` inserts or overwrites,
`len` is the length.  The list order stands for the (arbitrary) iteration
order; theorems that depend on an order say so.
-/

namespace Tok

/-- `m[k]` with the `ok` flag. -/
def mget [BEq κ] (m : List (κ × ν)) (k : κ) : Option ν :=
  match m with
  | [] => none
  | p :: l => if p.1 == k then some p.2 else mget l k

/-- `m[k] = v`. -/
def mset [BEq κ] (m : List (κ × ν)) (k : κ) (v : ν) : List (κ × ν) :=
  match m with
  | [] => [(k, v)]
  | p :: l => if p.1 == k then (k, v) :: l else p :: mset l k v

variable [BEq κ] [LawfulBEq κ]

omit [LawfulBEq κ] in
@[simp] theorem mget_nil (k : κ) : mget ([] : List (κ × ν)) k = none := rfl

@[simp] theorem mget_mset_self (m : List (κ × ν)) (k : κ) (v : ν) :
    mget (mset m k v) k = some v := by
  induction m with
  | nil => simp [mset, mget]
  | cons p l ih =>
    unfold mset
    split
    · simp [mget]
    · next h => simp [mget, h, ih]

theorem mget_mset_ne (m : List (κ × ν)) (k k' : κ) (v : ν) (h : k' ≠ k) :
    mget (mset m k v) k' = mget m k' := by
  induction m with
  | nil => simp [mset, mget, Ne.symm h]
  | cons p l ih =>
    unfold mset
    split
    · next h' =>
      have : p.1 = k := by simpa using h'
      simp [mget, this, Ne.symm h]
    · simp [mget, ih]

theorem mget_mset [DecidableEq κ] (m : List (κ × ν)) (k k' : κ) (v : ν) :
    mget (mset m k v) k' = if k' = k then some v else mget m k' := by
  split
  · next h => subst h; simp
  · next h => exact mget_mset_ne m k k' v h

theorem mem_of_mget {m : List (κ × ν)} {k : κ} {v : ν} (h : mget m k = some v) : (k, v) ∈ m := by
  induction m with
  | nil => cases h
  | cons p l ih =>
    unfold mget at h
    split at h
    · next h' =>
      have : p.1 = k := by simpa using h'
      cases h; subst this; simp
    · exact List.mem_cons_of_mem _ (ih h)

theorem mget_eq_none {m : List (κ × ν)} {k : κ} : mget m k = none ↔ k ∉ m.map (·.1) := by
  induction m with
  | nil => simp
  | cons p l ih =>
    unfold mget
    split
    · next h' => simp at h'; simp [h']
    · next h' => simp at h'; simp [ih, Ne.symm h']

theorem mget_of_mem {m : List (κ × ν)} (hn : (m.map (·.1)).Nodup) {k : κ} {v : ν}
    (h : (k, v) ∈ m) : mget m k = some v := by
  induction m with
  | nil => cases h
  | cons p l ih =>
    simp only [List.map_cons, List.nodup_cons] at hn
    unfold mget
    rcases List.mem_cons.1 h with rfl | h
    · simp
    · have : p.1 ≠ k := by
        intro hc; subst hc
        exact hn.1 (List.mem_map.2 ⟨_, h, rfl⟩)
      simp [this, ih hn.2 h]

theorem mset_keys (m : List (κ × ν)) (k : κ) (v : ν) :
    (mset m k v).map (·.1) = if (mget m k).isSome then m.map (·.1) else m.map (·.1) ++ [k] := by
  induction m with
  | nil => simp [mset]
  | cons p l ih =>
    unfold mset mget
    split
    · next h => simp at h; simp [h]
    · simp only [List.map_cons, ih]
      split <;> simp

theorem mset_length (m : List (κ × ν)) (k : κ) (v : ν) :
    (mset m k v).length = if (mget m k).isSome then m.length else m.length + 1 := by
  have := congrArg List.length (mset_keys m k v)
  simp only [List.length_map] at this
  rw [this]
  split <;> simp

theorem mset_nodup (m : List (κ × ν)) (k : κ) (v : ν) (h : (m.map (·.1)).Nodup) :
    ((mset m k v).map (·.1)).Nodup := by
  rw [mset_keys]
  split
  · exact h
  · next h' =>
    simp only [Option.not_isSome_iff_eq_none, mget_eq_none] at h'
    rw [List.nodup_append]
    refine ⟨h, by simp, ?_⟩
    intro a ha b hb
    simp only [List.mem_singleton] at hb
    subst hb
    intro hc; subst hc; exact h' ha

/-- Two association lists that are the same Go map (equal up to order). -/
def SameMap (m m' : List (κ × ν)) : Prop := ∀ k, mget m k = mget m' k

end Tok
