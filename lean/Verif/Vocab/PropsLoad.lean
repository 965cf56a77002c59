import Verif.Vocab.Load
import Verif.Vocab.PropsAdded

/-!
# C71: the added tokens of a configuration
-/

namespace Tok
open VocabState

/-! ### Specification -/

/-- The entries for special tokens (`b = true`) or for the others, in the order of the file. -/
def entries (b : Bool) (cfg : List TokenConfig) : List TokenConfig := cfg.filter (fun d => d.special == b)

/-- The contents in the order in which they get ids: those of the special tokens first, then those of
the others, each once, leaving out what the model has. -/
def idOrder (T : VocabState) (cfg : List TokenConfig) : List Str :=
  (((entries true cfg ++ entries false cfg).map (·.content)).filter
    (fun c => !c.isEmpty && (mget T.vocab c).isNone)).eraseDups

/-! ### Helpers -/

theorem createAddedTokens_eq (cfg : List TokenConfig) :
    createAddedTokens cfg = ((entries true cfg).map (·.token), (entries false cfg).map (·.token)) := by
  induction cfg with
  | nil => rfl
  | cons d ds ih =>
    unfold createAddedTokens
    rw [ih]
    cases h : d.special <;> simp [entries, h]

theorem token_contents (l : List TokenConfig) : (l.map (·.token)).map (·.content) = l.map (·.content) := by
  rw [List.map_map]; rfl

theorem addTokens_special {T T' : VocabState} {n : Int} (ts : List AddedToken) (h : Full T)
    (e : T.addTokens ts = .ok (T', n)) : T'.isSpecial = T.isSpecial := by
  obtain ⟨r, s, e', _⟩ := addTokens_spec ts h.inv h.reg (fun t ht => Or.inl (h.spec t ht))
  rw [e'] at e
  cases e
  funext c
  unfold isSpecial
  simp only [(addLoop_size ts 0).2.2.2.2.1]

/-- The two steps of loading. -/
theorem load_steps {T₀ : VocabState} (h₀ : FreshModel T₀) (cfg : List TokenConfig) :
    ∃ T₁ T, loadAdded T₀ cfg = .ok T ∧ VocabRuns T₀ T₁ ∧ VocabRuns T₁ T ∧
      (∀ (j : Nat) c, (newContents T₀ ((entries true cfg).map (·.token)))[j]? = some c →
        T₁.tokenToId c = some ((T₀.getVocabSize true : Int) + j)) ∧
      (∀ (j : Nat) c, (newContents T₁ ((entries false cfg).map (·.token)))[j]? = some c →
        T.tokenToId c = some ((T₁.getVocabSize true : Int) + j)) ∧
      T₁.getVocabSize true = T₀.getVocabSize true + (newContents T₀ ((entries true cfg).map (·.token))).length ∧
      (∀ c, (T₁.tokenToId c).isSome ↔ (T₀.tokenToId c).isSome ∨ (c ≠ [] ∧ ∃ d ∈ entries true cfg, d.content = c)) ∧
      (∀ c, (T.tokenToId c).isSome ↔ (T₁.tokenToId c).isSome ∨ (c ≠ [] ∧ ∃ d ∈ entries false cfg, d.content = c)) ∧
      (∀ c, T.isSpecial c = true ↔ c ≠ [] ∧ ∃ d ∈ entries true cfg, d.content = c) := by
  have hex : ∀ (l : List TokenConfig) c, (∃ t ∈ l.map (·.token), t.content = c) ↔ ∃ d ∈ l, d.content = c := by
    intro l c
    constructor
    · rintro ⟨t, ht, rfl⟩
      obtain ⟨d, hd, rfl⟩ := List.mem_map.mp ht
      exact ⟨d, hd, rfl⟩
    · rintro ⟨d, hd, rfl⟩
      exact ⟨d.token, List.mem_map.mpr ⟨d, hd, rfl⟩, rfl⟩
  have hns : ∀ c, T₀.isSpecial c = false := by
    intro c
    unfold isSpecial
    rw [h₀.noAdded.2.2.2.2.1]
    rfl
  have s1 : ∃ T₁, (if ((entries true cfg).map (·.token)).length > 0
        then (do let r ← T₀.addSpecialTokens ((entries true cfg).map (·.token)); pure r.1) else pure T₀ : Res VocabState) = .ok T₁ ∧
      VocabRuns T₀ T₁ ∧
      (∀ (j : Nat) c, (newContents T₀ ((entries true cfg).map (·.token)))[j]? = some c →
        T₁.tokenToId c = some ((T₀.getVocabSize true : Int) + j)) ∧
      T₁.getVocabSize true = T₀.getVocabSize true + (newContents T₀ ((entries true cfg).map (·.token))).length ∧
      (∀ c, (T₁.tokenToId c).isSome ↔ (T₀.tokenToId c).isSome ∨ (c ≠ [] ∧ ∃ d ∈ entries true cfg, d.content = c)) ∧
      (∀ c, T₁.isSpecial c = true ↔ c ≠ [] ∧ ∃ d ∈ entries true cfg, d.content = c) := by
    by_cases hz : entries true cfg = []
    · rw [hz]
      exact ⟨T₀, rfl, .refl, by simp [newContents], by simp [newContents], by simp, by simp [hns]⟩
    · have hl : ((entries true cfg).map (·.token)).length > 0 := by
        rw [List.length_map]
        exact List.length_pos_iff.mpr hz
      obtain ⟨T₁, n, e, hk, hs⟩ := (C14_added_known h₀ .refl ((entries true cfg).map (·.token))).2
      have hc := C15_add_count h₀ .refl _ T₁ n (Or.inr e)
      refine ⟨T₁, ?_, .step .refl (.addSpecialTokens _ e), ?_, ?_, ?_, ?_⟩
      · rw [if_pos hl, e]; rfl
      · intro j c hj
        obtain ⟨hlt, rfl⟩ := List.getElem?_eq_some_iff.mp hj
        exact C14_consecutive_ids h₀ .refl _ T₁ n (Or.inr e) j hlt
      · have := hc.2.1
        have := hc.1
        omega
      · intro c
        rw [hk, hex]
      · intro c
        rw [hs, hex, hns]
        simp
  obtain ⟨T₁, e1, r1, i1, z1, k1, p1⟩ := s1
  have hT := r1.full h₀.full
  have s2 : ∃ T, (if ((entries false cfg).map (·.token)).length > 0
        then (do let r ← T₁.addTokens ((entries false cfg).map (·.token)); pure r.1) else pure T₁ : Res VocabState) = .ok T ∧
      VocabRuns T₁ T ∧
      (∀ (j : Nat) c, (newContents T₁ ((entries false cfg).map (·.token)))[j]? = some c →
        T.tokenToId c = some ((T₁.getVocabSize true : Int) + j)) ∧
      (∀ c, (T.tokenToId c).isSome ↔ (T₁.tokenToId c).isSome ∨ (c ≠ [] ∧ ∃ d ∈ entries false cfg, d.content = c)) ∧
      T.isSpecial = T₁.isSpecial := by
    by_cases hz : entries false cfg = []
    · rw [hz]
      exact ⟨T₁, rfl, .refl, by simp [newContents], by simp, rfl⟩
    · have hl : ((entries false cfg).map (·.token)).length > 0 := by
        rw [List.length_map]
        exact List.length_pos_iff.mpr hz
      obtain ⟨T, n, e, hk⟩ := (C14_added_known h₀ r1 ((entries false cfg).map (·.token))).1
      refine ⟨T, ?_, .step .refl (.addTokens _ e), ?_, ?_, ?_⟩
      · rw [if_pos hl, e]; rfl
      · intro j c hj
        obtain ⟨hlt, rfl⟩ := List.getElem?_eq_some_iff.mp hj
        exact C14_consecutive_ids h₀ r1 _ T n (Or.inl e) j hlt
      · intro c
        rw [hk, hex]
      · exact addTokens_special _ hT e
  obtain ⟨T, e2, r2, i2, k2, p2⟩ := s2
  refine ⟨T₁, T, ?_, r1, r2, i1, i2, z1, k1, k2, ?_⟩
  · unfold loadAdded
    rw [createAddedTokens_eq]
    show (loadSpecial T₀ _ >>= fun T => loadOthers T _) = _
    rw [show loadSpecial T₀ _ = .ok T₁ from e1, Res.bind_ok]
    exact e2
  · intro c
    rw [p2]
    exact p1 c

theorem eraseDups_append_filter (l m : List Str) :
    (l ++ m).eraseDups = l.eraseDups ++ (m.filter (fun c => !l.contains c)).eraseDups := by
  rw [List.eraseDups_append]
  rfl

/-- The order of ids, in two steps. -/
theorem idOrder_eq {T₀ T₁ : VocabState} (h₀ : FreshModel T₀) (cfg : List TokenConfig)
    (k1 : ∀ c, (T₁.tokenToId c).isSome ↔ (T₀.tokenToId c).isSome ∨ (c ≠ [] ∧ ∃ d ∈ entries true cfg, d.content = c)) :
    idOrder T₀ cfg = newContents T₀ ((entries true cfg).map (·.token)) ++ newContents T₁ ((entries false cfg).map (·.token)) := by
  have ht : ∀ c, T₀.tokenToId c = mget T₀.vocab c := by
    intro c
    unfold tokenToId
    rw [h₀.noAdded.1]
    rfl
  unfold idOrder newContents
  rw [token_contents, token_contents, List.map_append, List.filter_append, List.eraseDups_append]
  congr 1
  · congr 1
    apply List.filter_congr
    intro c _
    rw [ht]
  · congr 1
    unfold List.removeAll
    rw [List.filter_filter]
    apply List.filter_congr
    intro c _
    have hk := k1 c
    rw [ht] at hk
    cases h1 : T₁.tokenToId c with
    | none =>
      rw [h1] at hk
      simp only [Option.isSome_none, Bool.false_eq_true, false_iff, not_or, not_and, not_exists] at hk
      cases hm : mget T₀.vocab c with
      | some i => rw [hm] at hk; simp at hk
      | none =>
        by_cases h0 : c = []
        · subst h0; simp
        · have h2 : List.elem c (((entries true cfg).map (·.content)).filter (fun c => !c.isEmpty && (mget T₀.vocab c).isNone)) = false := by
            rw [Bool.eq_false_iff]
            intro h
            rw [List.elem_eq_mem, decide_eq_true_eq] at h
            obtain ⟨d, hd, e⟩ := List.mem_map.mp (List.mem_filter.mp h).1
            exact hk.2 h0 d hd e
          rw [h2]
          simp
    | some i =>
      rw [h1] at hk
      simp only [Option.isSome_some, true_iff] at hk
      cases hm : mget T₀.vocab c with
      | some i => simp
      | none =>
        rw [hm] at hk
        simp only [Option.isSome_none, Bool.false_eq_true, false_or] at hk
        obtain ⟨h0, d, hd, rfl⟩ := hk
        have h2 : List.elem d.content (((entries true cfg).map (·.content)).filter (fun c => !c.isEmpty && (mget T₀.vocab c).isNone)) = true := by
          rw [List.elem_eq_mem, decide_eq_true_eq]
          refine List.mem_filter.mpr ⟨List.mem_map.mpr ⟨d, hd, rfl⟩, ?_⟩
          rw [hm]
          simpa using h0
        rw [h2]
        simp

/-! ### The properties -/

/-- C71: loading the tokens of a configuration never fails; every token in it is known afterwards and
nothing else that the model does not know; the tokens marked as special are the special ones. -/
theorem C71_known {T₀ : VocabState} (h₀ : FreshModel T₀) (cfg : List TokenConfig) :
    ∃ T, loadAdded T₀ cfg = .ok T ∧
      (∀ c, (T.tokenToId c).isSome ↔ (mget T₀.vocab c).isSome ∨ (c ≠ [] ∧ ∃ d ∈ cfg, d.content = c)) ∧
      (∀ c, T.isSpecial c = true ↔ c ≠ [] ∧ ∃ d ∈ cfg, d.special = true ∧ d.content = c) := by
  obtain ⟨T₁, T, e, r1, r2, i1, i2, z1, k1, k2, p⟩ := load_steps h₀ cfg
  have ht : ∀ c, T₀.tokenToId c = mget T₀.vocab c := by
    intro c
    unfold tokenToId
    rw [h₀.noAdded.1]
    rfl
  have hm : ∀ b d, d ∈ entries b cfg ↔ d ∈ cfg ∧ d.special = b := by
    intro b d
    unfold entries
    rw [List.mem_filter]
    simp
  refine ⟨T, e, ?_, ?_⟩
  · intro c
    rw [k2, k1, ht]
    constructor
    · rintro ((h | ⟨h, d, hd, hc⟩) | ⟨h, d, hd, hc⟩)
      · exact Or.inl h
      · exact Or.inr ⟨h, d, ((hm _ _).mp hd).1, hc⟩
      · exact Or.inr ⟨h, d, ((hm _ _).mp hd).1, hc⟩
    · rintro (h | ⟨h, d, hd, hc⟩)
      · exact Or.inl (Or.inl h)
      · cases hs : d.special
        · exact Or.inr ⟨h, d, (hm _ _).mpr ⟨hd, hs⟩, hc⟩
        · exact Or.inl (Or.inr ⟨h, d, (hm _ _).mpr ⟨hd, hs⟩, hc⟩)
  · intro c
    rw [p]
    constructor
    · rintro ⟨h, d, hd, hc⟩
      exact ⟨h, d, ((hm _ _).mp hd).1, ((hm _ _).mp hd).2, hc⟩
    · rintro ⟨h, d, hd, hs, hc⟩
      exact ⟨h, d, (hm _ _).mpr ⟨hd, hs⟩, hc⟩

/-- C71: tokens of the model keep their ids, the others get the ids after those of the model, special
tokens first, whatever ids the configuration gives them. -/
theorem C71_ids {T₀ : VocabState} (h₀ : FreshModel T₀) (cfg : List TokenConfig) (T : VocabState)
    (e : loadAdded T₀ cfg = .ok T) :
    (∀ c i, mget T₀.vocab c = some i → T.tokenToId c = some i) ∧
    (∀ (j : Nat) c, (idOrder T₀ cfg)[j]? = some c → T.tokenToId c = some ((T₀.getVocabSize false : Int) + j)) := by
  obtain ⟨T₁, T', e', r1, r2, i1, i2, z1, k1, k2, p⟩ := load_steps h₀ cfg
  rw [e] at e'
  cases e'
  have hz : T₀.getVocabSize true = T₀.getVocabSize false := by
    simp [getVocabSize, h₀.noAdded.1]
  have ht : ∀ c, T₀.tokenToId c = mget T₀.vocab c := by
    intro c
    unfold tokenToId
    rw [h₀.noAdded.1]
    rfl
  constructor
  · intro c i h
    rw [← ht] at h
    exact C14_stable h₀ r1 r2 c i (C14_stable h₀ .refl r1 c i h)
  · intro j c hj
    rw [idOrder_eq h₀ cfg k1] at hj
    by_cases hlt : j < (newContents T₀ ((entries true cfg).map (·.token))).length
    · rw [List.getElem?_append_left hlt] at hj
      rw [C14_stable h₀ r1 r2 c _ (i1 j c hj), hz]
    · rw [List.getElem?_append_right (by omega)] at hj
      rw [i2 _ c hj, z1, hz]
      congr 1
      omega

theorem eraseDups_nodup_self (l : List Str) (h : l.Nodup) : l.eraseDups = l := by
  induction l with
  | nil => rfl
  | cons a l ih =>
    rw [List.nodup_cons] at h
    rw [List.eraseDups_cons, List.filter_eq_self.mpr, ih h.2]
    intro x hx
    have : x ≠ a := fun e => h.1 (e ▸ hx)
    simpa using this

theorem filter_split (l : List TokenConfig) (h : l.Pairwise (fun a b => b.special = true → a.special = true)) :
    entries true l ++ entries false l = l := by
  induction l with
  | nil => rfl
  | cons a l ih =>
    rw [List.pairwise_cons] at h
    cases ha : a.special with
    | true =>
      simp only [entries, List.filter_cons, ha, beq_self_eq_true, if_true]
      have := ih h.2
      unfold entries at this
      simpa using this
    | false =>
      have hall : ∀ d ∈ l, d.special = false := by
        intro d hd
        cases hs : d.special with
        | false => rfl
        | true => rw [h.1 d hd hs] at ha; cases ha
      have h1 : entries true (a :: l) = [] := by
        unfold entries
        rw [List.filter_eq_nil_iff]
        intro d hd
        rcases List.mem_cons.mp hd with rfl | hd
        · simp [ha]
        · simp [hall d hd]
      have h2 : entries false (a :: l) = a :: l := by
        unfold entries
        rw [List.filter_eq_self]
        intro d hd
        rcases List.mem_cons.mp hd with rfl | hd
        · simp [ha]
        · simp [hall d hd]
      rw [h1, h2]
      rfl

/-- C71, the part about ids that holds: if the tokens that the model has carry the model's ids and the
others follow without gaps, special tokens first, then all ids are those of the configuration. Missing:
tokens that are not special before special ones, and gaps. -/
theorem C71_config_ids_partial {T₀ : VocabState} (h₀ : FreshModel T₀) (cfg : List TokenConfig) (T : VocabState)
    (e : loadAdded T₀ cfg = .ok T) (hne : ∀ d ∈ cfg, d.content ≠ []) (hnd : (cfg.map (·.content)).Nodup)
    (hk : ∀ d ∈ cfg, ∀ i, mget T₀.vocab d.content = some i → d.id = i)
    (hs : (cfg.filter (fun d => (mget T₀.vocab d.content).isNone)).Pairwise (fun a b => b.special = true → a.special = true))
    (hi : ∀ (j : Nat) d, (cfg.filter (fun d => (mget T₀.vocab d.content).isNone))[j]? = some d →
      d.id = (T₀.getVocabSize false : Int) + j) :
    ∀ d ∈ cfg, T.tokenToId d.content = some d.id := by
  obtain ⟨h1, h2⟩ := C71_ids h₀ cfg T e
  intro d hd
  cases hm : mget T₀.vocab d.content with
  | some i =>
    rw [hk d hd i hm]
    exact h1 _ i hm
  | none =>
    have hord : idOrder T₀ cfg = (cfg.filter (fun d => (mget T₀.vocab d.content).isNone)).map (·.content) := by
      have hf : entries true (cfg.filter (fun d => (mget T₀.vocab d.content).isNone)) ++
          entries false (cfg.filter (fun d => (mget T₀.vocab d.content).isNone)) =
          (entries true cfg ++ entries false cfg).filter (fun d => (mget T₀.vocab d.content).isNone) := by
        rw [List.filter_append]
        unfold entries
        rw [List.filter_filter, List.filter_filter, List.filter_filter, List.filter_filter]
        congr 1 <;> (apply List.filter_congr; intro x _; rw [Bool.and_comm])
      rw [← filter_split _ hs, hf]
      unfold idOrder
      rw [List.filter_map]
      have hc : (entries true cfg ++ entries false cfg).filter ((fun c => !c.isEmpty && (mget T₀.vocab c).isNone) ∘ (·.content)) =
          (entries true cfg ++ entries false cfg).filter (fun d => (mget T₀.vocab d.content).isNone) := by
        apply List.filter_congr
        intro x hx
        have : x ∈ cfg := by
          rcases List.mem_append.mp hx with hx | hx
          · exact (List.mem_filter.mp hx).1
          · exact (List.mem_filter.mp hx).1
        have := hne x this
        cases hx : x.content with
        | nil => exact absurd hx this
        | cons a l => simp [hx]
      rw [hc]
      apply eraseDups_nodup_self
      rw [← hf, filter_split _ hs]
      exact hnd.sublist ((List.filter_sublist).map _)
    have hmem : d ∈ cfg.filter (fun d => (mget T₀.vocab d.content).isNone) := List.mem_filter.mpr ⟨hd, by rw [hm]; rfl⟩
    obtain ⟨j, hj⟩ := List.getElem?_of_mem hmem
    rw [hi j d hj]
    apply h2 j
    rw [hord, List.getElem?_map, hj]
    rfl

/-- C71 fails whenever a token that is not special has a smaller id than a special one, neither being
the model's: not both ids are those of the configuration. -/
theorem C71_order_violated {T₀ : VocabState} (h₀ : FreshModel T₀) (cfg : List TokenConfig) (T : VocabState)
    (e : loadAdded T₀ cfg = .ok T) (a b : TokenConfig) (ha : a ∈ cfg) (hb : b ∈ cfg) (hae : a.content ≠ [])
    (hbe : b.content ≠ []) (has : ∀ d ∈ cfg, d.content = a.content → d.special = false) (hbs : b.special = true)
    (hav : mget T₀.vocab a.content = none) (hbv : mget T₀.vocab b.content = none) (hlt : a.id ≤ b.id) :
    ¬ (T.tokenToId a.content = some a.id ∧ T.tokenToId b.content = some b.id) := by
  obtain ⟨T₁, T', e', r1, r2, i1, i2, z1, k1, k2, p⟩ := load_steps h₀ cfg
  rw [e] at e'
  cases e'
  have ht : ∀ c, T₀.tokenToId c = mget T₀.vocab c := by
    intro c
    unfold tokenToId
    rw [h₀.noAdded.1]
    rfl
  rintro ⟨h1, h2⟩
  have mb : b.content ∈ newContents T₀ ((entries true cfg).map (·.token)) := by
    unfold newContents
    rw [List.mem_eraseDups, List.mem_filter, token_contents, ht, hbv]
    exact ⟨List.mem_map.mpr ⟨b, List.mem_filter.mpr ⟨hb, by simp [hbs]⟩, rfl⟩, by simpa using hbe⟩
  have na : T₁.tokenToId a.content = none := by
    have := k1 a.content
    rw [ht, hav] at this
    cases hx : T₁.tokenToId a.content with
    | none => rfl
    | some i =>
      rw [hx] at this
      obtain ⟨_, d, hd, hc⟩ := (this.mp rfl).resolve_left (by simp)
      have := List.mem_filter.mp hd
      rw [has d this.1 hc] at this
      simp at this
  have ma : a.content ∈ newContents T₁ ((entries false cfg).map (·.token)) := by
    unfold newContents
    rw [List.mem_eraseDups, List.mem_filter, token_contents, na]
    exact ⟨List.mem_map.mpr ⟨a, List.mem_filter.mpr ⟨ha, by simp [has a ha rfl]⟩, rfl⟩, by simpa using hae⟩
  obtain ⟨i, hi⟩ := List.getElem?_of_mem ma
  obtain ⟨j, hj⟩ := List.getElem?_of_mem mb
  have hjl := (List.getElem?_eq_some_iff.mp hj).1
  have e1 := i2 i _ hi
  have e2 := C14_stable h₀ r1 r2 _ _ (i1 j _ hj)
  rw [h1] at e1
  rw [h2] at e2
  have := Option.some.inj e1
  have := Option.some.inj e2
  omega

theorem length_eraseDups_le (l : List Str) : l.eraseDups.length ≤ l.length := by
  induction h : l.length using Nat.strongRecOn generalizing l with
  | _ n ih =>
    cases l with
    | nil => simp
    | cons a l =>
      rw [List.eraseDups_cons, List.length_cons]
      rw [List.length_cons] at h
      have h1 := List.length_filter_le (fun b => !b == a) l
      have := ih _ (by omega) (l.filter (fun b => !b == a)) rfl
      omega

/-- C71 fails for ids with a gap: an id that is further from the model's than there are tokens in the
configuration is never the id of its token. -/
theorem C71_gap_violated {T₀ : VocabState} (h₀ : FreshModel T₀) (cfg : List TokenConfig) (T : VocabState)
    (e : loadAdded T₀ cfg = .ok T) (d : TokenConfig) (hd : d ∈ cfg) (hne : d.content ≠ [])
    (hv : mget T₀.vocab d.content = none) (hg : (T₀.getVocabSize false : Int) + cfg.length ≤ d.id) :
    T.tokenToId d.content ≠ some d.id := by
  obtain ⟨_, h2⟩ := C71_ids h₀ cfg T e
  have hin : d ∈ entries true cfg ++ entries false cfg := by
    cases hs : d.special
    · exact List.mem_append_right _ (List.mem_filter.mpr ⟨hd, by simp [hs]⟩)
    · exact List.mem_append_left _ (List.mem_filter.mpr ⟨hd, by simp [hs]⟩)
  have hm : d.content ∈ idOrder T₀ cfg := by
    unfold idOrder
    rw [List.mem_eraseDups, List.mem_filter, hv]
    exact ⟨List.mem_map.mpr ⟨d, hin, rfl⟩, by simpa using hne⟩
  obtain ⟨j, hj⟩ := List.getElem?_of_mem hm
  rw [h2 j _ hj]
  have hl : (idOrder T₀ cfg).length ≤ cfg.length := by
    unfold idOrder
    refine Nat.le_trans (length_eraseDups_le _) (Nat.le_trans (List.length_filter_le _ _) ?_)
    rw [List.length_map, List.length_append]
    unfold entries
    have : ∀ l : List TokenConfig, (l.filter (fun d => d.special == true)).length + (l.filter (fun d => d.special == false)).length ≤ l.length := by
      intro l
      induction l with
      | nil => simp
      | cons a l ih => cases h : a.special <;> simp [h] at ih ⊢ <;> omega
    exact this cfg
  have := (List.getElem?_eq_some_iff.mp hj).1
  intro h
  have := Option.some.inj h
  omega

/-! ### Which tokens are looked for in texts -/

theorem addLoop_addedTokens (ts : List AddedToken) : ∀ {T : VocabState} (k : Nat) (t : AddedToken),
    t ∈ (T.addLoop k ts).1.addedTokens → t ∈ T.addedTokens ∨ T.tokenToId t.content = none := by
  induction ts with
  | nil => intro T k t h; exact Or.inl h
  | cons u ts ih =>
    intro T k t h
    rcases ih (T := (T.addOne k u).1) (T.addOne k u).2 t h with h | h
    · by_cases h0 : u.content = []
      · rw [addOne_eq_empty h0] at h; exact Or.inl h
      cases hk : T.tokenToId u.content with
      | some i => rw [addOne_known h0 hk] at h; exact Or.inl h
      | none =>
        rw [addOne_new h0 hk] at h
        simp only at h
        split at h
        · exact Or.inl h
        · rcases List.mem_append.mp h with h | h
          · exact Or.inl h
          · rw [List.mem_singleton.mp h]; exact Or.inr hk
    · cases hk : T.tokenToId t.content with
      | none => exact Or.inr rfl
      | some i => rw [addOne_stable k u hk] at h; cases h

theorem refresh_mem {T T' : VocabState} (h1 : T.Registered) (h2 : T.SpecialKnown) (e : T.refresh = .ok T') :
    T'.addedTokens = T.addedTokens ∧ T'.specialTokens = T.specialTokens ∧
    ∀ p ∈ T'.splitRe ++ T'.splitNormalizedRe, p.1 ∈ T'.specialTokens ++ T'.addedTokens := by
  obtain ⟨r, hr, hm, _⟩ := refreshIds_ok (T := T) (T.specialTokens ++ T.addedTokens) (by
    intro t ht
    rcases List.mem_append.1 ht with ht | ht
    · exact h2 t ht
    · exact h1 t ht)
  unfold refresh at e
  rw [hr] at e
  cases e
  refine ⟨rfl, rfl, ?_⟩
  intro p hp
  have : p ∈ r := by
    rcases List.mem_append.mp hp with hp | hp
    · exact (List.mem_filter.mp hp).1
    · exact (List.mem_filter.mp hp).1
  show p.1 ∈ T.specialTokens ++ T.addedTokens
  rw [← hm]
  exact List.mem_map.mpr ⟨p, this, rfl⟩

/-- What the texts are searched for: special tokens, and tokens unknown to `V`. -/
def SearchesOnly (V : Str → Option Int) (T : VocabState) : Prop :=
  (∀ t ∈ T.addedTokens, V t.content = none) ∧
  (∀ p ∈ T.splitRe ++ T.splitNormalizedRe, p.1 ∈ T.specialTokens ++ T.addedTokens)

theorem addTokens_searches {V : Str → Option Int} {T T' : VocabState} {n : Int} (ts : List AddedToken) (hi : T.Inv)
    (hr : T.Registered) (hs : ∀ t ∈ T.specialTokens, (T.tokenToId t.content).isSome ∨ (t ∈ ts ∧ t.content ≠ []))
    (hV : ∀ c, T.tokenToId c = none → V c = none) (h : ∀ t ∈ T.addedTokens, V t.content = none)
    (e : T.addTokens ts = .ok (T', n)) : SearchesOnly V T' := by
  obtain ⟨r, s, _, _, h1, h2, h3⟩ := addTokens_spec ts hi hr hs
  unfold VocabState.addTokens at e
  simp only at e
  obtain ⟨T'', e1, e2⟩ := Res.bind_eq_ok.mp e
  cases e2
  obtain ⟨m1, m2, m3⟩ := refresh_mem h2 h3 e1
  refine ⟨?_, m3⟩
  intro t ht
  rw [m1] at ht
  rcases addLoop_addedTokens ts 0 t ht with ht | ht
  · exact h t ht
  · exact hV _ ht

/-- C71 fails for tokens that the model has and that are not special: although they are in the
configuration, texts are not searched for them. -/
theorem C71_model_token_violated {T₀ : VocabState} (h₀ : FreshModel T₀) (cfg : List TokenConfig) (T : VocabState)
    (e : loadAdded T₀ cfg = .ok T) (d : TokenConfig) (_ : d ∈ cfg) (hs : ∀ d' ∈ cfg, d'.content = d.content → d'.special = false)
    (i : Int) (hv : mget T₀.vocab d.content = some i) :
    ∀ p ∈ T.splitRe ++ T.splitNormalizedRe, p.1.content ≠ d.content := by
  have ht : ∀ c, T₀.tokenToId c = mget T₀.vocab c := by
    intro c
    unfold tokenToId
    rw [h₀.noAdded.1]
    rfl
  obtain ⟨T', e', _, hsp⟩ := C71_known h₀ cfg
  rw [e] at e'
  cases e'
  have full : Full T ∧ SearchesOnly T₀.tokenToId T := by
    unfold loadAdded at e
    obtain ⟨T₁, e1, e2⟩ := Res.bind_eq_ok.mp e
    have hf := h₀.full
    have s1 : Full T₁ ∧ SearchesOnly T₀.tokenToId T₁ ∧ (∀ c, T₁.tokenToId c = none → T₀.tokenToId c = none) := by
      unfold loadSpecial at e1
      split at e1
      · obtain ⟨r, e3, e4⟩ := Res.bind_eq_ok.mp e1
        cases e4
        obtain ⟨T', n, e5, hf', htt, _⟩ := addSpecialTokens_full (createAddedTokens cfg).1 hf
        rw [e5] at e3
        cases e3
        have hreg := @registerSpecial_same (createAddedTokens cfg).1 T₀
        refine ⟨hf', ?_, ?_⟩
        · unfold VocabState.addSpecialTokens at e5
          refine addTokens_searches _ (Inv_congr hf.inv hreg.2.2.1 hreg.2.2.2.1 hreg.2.2.2.2.1 hreg.2.2.2.2.2.1 hreg.2.2.2.2.2.2.1)
            ?_ ?_ ?_ ?_ e5
          · intro t htm; rw [hreg.2.2.2.2.2.2.2] at htm; rw [hreg.1]; exact hf.reg t htm
          · intro t htm
            rcases registerSpecial_mem _ t htm with hm | hm
            · rw [hreg.1]; exact Or.inl (hf.spec t hm)
            · exact Or.inr hm
          · intro c hc; rw [hreg.1] at hc; exact hc
          · intro t htm; rw [hreg.2.2.2.2.2.2.2, h₀.noAdded.2.2.1] at htm; cases htm
        · intro c hc
          cases hk : T₀.tokenToId c with
          | none => rfl
          | some j =>
            rw [htt, addLoop_stable _ 0 (by rw [hreg.1]; exact hk)] at hc
            cases hc
      · cases e1
        refine ⟨hf, ⟨?_, ?_⟩, fun c hc => hc⟩
        · intro t htm; rw [h₀.noAdded.2.2.1] at htm; cases htm
        · intro p hp; rw [h₀.noAdded.2.2.2.2.2.1, h₀.noAdded.2.2.2.2.2.2] at hp; cases hp
    obtain ⟨f1, s1, k1⟩ := s1
    unfold loadOthers at e2
    split at e2
    · obtain ⟨r, e3, e4⟩ := Res.bind_eq_ok.mp e2
      cases e4
      obtain ⟨T', n, e5, hf', _⟩ := addTokens_full (createAddedTokens cfg).2 f1
      rw [e5] at e3
      cases e3
      exact ⟨hf', addTokens_searches _ f1.inv f1.reg (fun t ht => Or.inl (f1.spec t ht)) k1 s1.1 e5⟩
    · cases e2
      exact ⟨f1, s1⟩
  intro p hp hc
  rcases List.mem_append.mp (full.2.2 p hp) with h | h
  · obtain ⟨_, d', hd', h1, h2⟩ := (hsp _).mp ((full.1.specSet p.1.content).mpr ⟨p.1, h, rfl⟩)
    rw [hs d' hd' (h2.trans hc)] at h1
    cases h1
  · have := full.2.1 p.1 h
    rw [hc, ht, hv] at this
    cases this

/-! ### Instances -/

/-- Two special tokens and another one after a model with two tokens: ids as given. -/
example : ∃ T, loadAdded sampleModel
      [⟨2, "<s>".toList, false, false, false, false, true⟩, ⟨0, "a".toList, false, false, false, false, true⟩,
        ⟨3, "</s>".toList, false, false, false, false, true⟩, ⟨4, "xyz".toList, false, false, false, true, false⟩] = .ok T ∧
    T.tokenToId "xyz".toList = some 4 := by
  obtain ⟨T, e, _⟩ := C71_known sampleModel_fresh
    [⟨2, "<s>".toList, false, false, false, false, true⟩, ⟨0, "a".toList, false, false, false, false, true⟩,
        ⟨3, "</s>".toList, false, false, false, false, true⟩, ⟨4, "xyz".toList, false, false, false, true, false⟩]
  refine ⟨T, e, ?_⟩
  refine C71_config_ids_partial sampleModel_fresh _ T e (by decide) (by decide) ?_ (by decide) ?_
    ⟨4, "xyz".toList, false, false, false, true, false⟩ (by decide)
  · intro d hd i hi
    simp only [List.mem_cons, List.not_mem_nil, or_false] at hd
    rcases hd with rfl | rfl | rfl | rfl <;> revert hi <;> simp [sampleModel, mget] <;> omega
  · have : ([⟨2, "<s>".toList, false, false, false, false, true⟩, ⟨0, "a".toList, false, false, false, false, true⟩,
        ⟨3, "</s>".toList, false, false, false, false, true⟩, ⟨4, "xyz".toList, false, false, false, true, false⟩] :
        List TokenConfig).filter (fun d => (mget sampleModel.vocab d.content).isNone) =
      [⟨2, "<s>".toList, false, false, false, false, true⟩,
        ⟨3, "</s>".toList, false, false, false, false, true⟩, ⟨4, "xyz".toList, false, false, false, true, false⟩] := by
      decide
    rw [this]
    intro j d hj
    match j, hj with
    | 0, hj => cases hj; rfl
    | 1, hj => cases hj; rfl
    | 2, hj => cases hj; rfl
    | j + 3, hj => simp at hj

/-- A token that is not special before a special one: the ids are exchanged. -/
example : ∃ T, loadAdded sampleModel
      [⟨2, "xyz".toList, false, false, false, true, false⟩, ⟨3, "<s>".toList, false, false, false, false, true⟩] = .ok T ∧
    T.tokenToId "<s>".toList = some 2 ∧ T.tokenToId "xyz".toList = some 3 := by
  obtain ⟨T, e, _⟩ := C71_known sampleModel_fresh
    [⟨2, "xyz".toList, false, false, false, true, false⟩, ⟨3, "<s>".toList, false, false, false, false, true⟩]
  have h := (C71_ids sampleModel_fresh _ T e).2
  exact ⟨T, e, h 0 "<s>".toList (by decide), h 1 "xyz".toList (by decide)⟩

end Tok
