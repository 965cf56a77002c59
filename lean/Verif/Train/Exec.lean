import Verif.Train.PropsRun

/-! # Running the trainer: lemmas -/

namespace Tok.Train

/-- The first entry of highest count, and the others. -/
def pick : TMerge → List TMerge → TMerge × List TMerge
  | e, [] => (e, [])
  | e, x :: q =>
    let p := pick x q
    if p.1.count ≤ e.count then (e, x :: q) else (p.1, e :: p.2)

theorem pick_pops (q : List TMerge) : ∀ e, Pops (e :: q) (pick e q).1 (pick e q).2 := by
  induction q with
  | nil => intro e; exact ⟨.refl _, by simp [pick]⟩
  | cons x q ih =>
    intro e
    obtain ⟨h1, h2⟩ := ih x
    simp only [pick]
    split
    · next hc =>
      refine ⟨.refl _, ?_⟩
      intro y hy
      rcases List.mem_cons.1 hy with rfl | hy
      · exact Int.le_refl _
      · have := h2 y hy
        simp only
        omega
    · next hc =>
      refine ⟨(h1.cons e).trans (.swap _ _ _), ?_⟩
      intro y hy
      rcases List.mem_cons.1 hy with rfl | hy
      · simp only; omega
      · exact h2 y hy

/-- One way the loop can go. -/
def exec (cfg : Cfg) (counts : List Int) : Nat → State → Option State
  | 0, _ => none
  | fuel + 1, s =>
    if (s.w2id.length : Int) ≥ cfg.vocabSize then some s
    else match s.queue with
      | [] => some s
      | e :: q =>
        match iteration cfg counts s (pick e q).1 (pick e q).2 (pick e q).1.pos with
        | .ok none => some s
        | .ok (some s') => exec cfg counts fuel s'
        | _ => none

theorem exec_run (cfg : Cfg) (counts : List Int) (fuel : Nat) : ∀ {s s' : State},
    exec cfg counts fuel s = some s' → Star (Step cfg counts) s s' ∧ Stops cfg counts s' := by
  induction fuel with
  | zero => intro s s' h; cases h
  | succ fuel ih =>
    intro s s' h
    simp only [exec] at h
    split at h
    · next hv =>
      cases h
      exact ⟨.refl, Or.inl (Or.inl hv)⟩
    · next hv =>
      split at h
      · next hq =>
        cases h
        exact ⟨.refl, Or.inl (Or.inr hq)⟩
      · next e q hq =>
        have hf : ¬ Full cfg s := by
          rintro (hx | hx)
          · exact hv hx
          · rw [hq] at hx; cases hx
        have hp : Pops s.queue (pick e q).1 (pick e q).2 := hq ▸ pick_pops q e
        split at h
        · next hi =>
          cases h
          exact ⟨.refl, Or.inr ⟨hf, _, _, _, hp, .refl _, hi⟩⟩
        · next s1 hi =>
          obtain ⟨h1, h2⟩ := ih h
          have hs : Step cfg counts s s1 := ⟨hf, _, _, _, hp, .refl _, hi⟩
          exact ⟨Star.trans (.tail .refl hs) h1, h2⟩
        · cases h

/-- One way `Train` can go. -/
def train (cfg : Cfg) (addr : Nat → Nat → Str) (wc : List (Str × Int)) (fuel : Nat) : Option Trained :=
  match start cfg addr wc (chunks wc.length) with
  | .ok s => (exec cfg (wordCounts wc) fuel s).map (finish cfg)
  | _ => none

theorem fillChars_addr {cfg : Cfg} (hp : Plain cfg) (addr addr' : Nat → Str) (n : Nat) (w : Str) :
    ∀ (i : Nat) (t : Tab) (ss : List Symbol),
      fillChars cfg addr n i w t ss = fillChars cfg addr' n i w t ss := by
  induction w with
  | nil => intro i t ss; rfl
  | cons c w ih =>
    intro i t ss
    simp only [fillChars, ih, charText_plain hp]

theorem fillWords_addr {cfg : Cfg} (hp : Plain cfg) (addr addr' : Nat → Nat → Str) (l : List Str) :
    ∀ (k : Nat) (t : Tab) (ws : List (List Symbol)),
      fillWords cfg addr k l t ws = fillWords cfg addr' k l t ws := by
  induction l with
  | nil => intro k t ws; rfl
  | cons w l ih =>
    intro k t ws
    simp only [fillWords, fillChars_addr hp (addr k) (addr' k), ih]

theorem train_plain {cfg : Cfg} (hp : Plain cfg) (addr addr' : Nat → Nat → Str) (wc : List (Str × Int))
    (fuel : Nat) : train cfg addr wc fuel = train cfg addr' wc fuel := by
  simp only [train, start, tokenizeWords, fillWords_addr hp addr addr']

theorem train_trains {cfg : Cfg} {addr : Nat → Nat → Str} {wc : List (Str × Int)} {fuel : Nat} {r : Trained}
    (h : train cfg addr wc fuel = some r) : Trains cfg addr wc r := by
  unfold train at h
  split at h
  · next s hs =>
    rw [Option.map_eq_some_iff] at h
    obtain ⟨s', h1, rfl⟩ := h
    obtain ⟨h2, h3⟩ := exec_run _ _ _ h1
    exact ⟨s', ⟨_, s, .refl _, hs, h2⟩, h3, rfl⟩
  · cases h

end Tok.Train
