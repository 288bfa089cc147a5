import Verif.Hub.Model
/-!
# Properties of `koios::async_awaiting_hub` (C25)
-/

namespace Verif.Hub

theorem asleep_append (t : Nat) (tr e : List Ev) :
    asleep t (tr ++ e) = e.foldl (fun b e => b.bind (sleepStep t · e)) (asleep t tr) := by
  simp [asleep, List.foldl_append]

theorem call_append (w : Nat) (tr e : List Ev) :
    call w (tr ++ e) = e.foldl (fun b e => b.bind (callStep w · e)) (call w tr) := by
  simp [call, List.foldl_append]

def Pc.call : Pc → Call → Prop
  | .idle, c => c = .out
  | .next, c => c = .next 0
  | .nextHas _, c => c = .next 0
  | .all r, c => c = .all r
  | .allHas _, c => ∃ r, c = .all r

def Pc.has (u : Nat) : Pc → Bool
  | .nextHas v | .allHas v => v == u
  | _ => false

structure Inv (s : St) (tr : List Ev) : Prop where
  slp : ∀ t, asleep t tr = some (!s.out t)
  cal : ∀ w, ∃ c, call w tr = some c ∧ (s.pc w).call c
  q : ∀ u, u ∈ s.queue → s.out u = false
  nodup : s.queue.Nodup
  has : ∀ w u, (s.pc w).has u = true → s.out u = false ∧ u ∉ s.queue
  huniq : ∀ w w' u, (s.pc w).has u = true → (s.pc w').has u = true → w = w'
  whereQ : ∀ u, s.out u = false → u ∈ s.queue ∨ ∃ w, (s.pc w).has u = true

theorem inv_init : Inv init [] := by
  constructor <;> simp [init, asleep, call, Pc.call, Pc.has]

theorem cal_other {s : St} {tr : List Ev} (hc : ∀ w, ∃ c, call w tr = some c ∧ (s.pc w).call c)
    (w : Nat) (pc' : Pc) (e : List Ev)
    (hother : ∀ x, x ≠ w → ∀ c, e.foldl (fun b e => b.bind (callStep x · e)) (some c) = some c)
    (hself : ∀ c, (s.pc w).call c → ∃ c', e.foldl (fun b e => b.bind (callStep w · e)) (some c) = some c' ∧
      pc'.call c') :
    ∀ x, ∃ c, call x (tr ++ e) = some c ∧ (upd s.pc w pc' x).call c := by
  intro x
  obtain ⟨c, h1, h2⟩ := hc x
  rw [call_append, h1]
  by_cases hx : x = w
  · subst hx
    simpa using hself c h2
  · exact ⟨c, hother x hx c, by simpa [upd_apply, hx] using h2⟩

theorem inv_step (s : St) (tr : List Ev) (l : Lbl) (s' : St) (e : List Ev)
    (h : Inv s tr) (hs : step s l = some (s', e)) : Inv s' (tr ++ e) := by
  obtain ⟨hl, hc, hq, hn, hh, hu, hw⟩ := h
  cases l with
  | add t =>
    simp only [step] at hs
    split at hs
    · rename_i ht
      simp only [Option.some.injEq, Prod.mk.injEq] at hs
      obtain ⟨rfl, rfl⟩ := hs
      have hnt : t ∉ s.queue := fun hm => by simp [hq t hm] at ht
      have hn' : (s.queue ++ [t]).Nodup := by
        rw [List.nodup_append]; exact ⟨hn, by simp, by grind⟩
      constructor <;> try dsimp only
      · intro x
        rw [asleep_append, hl, upd_apply]
        by_cases hx : x = t
        · subst hx; simp [sleepStep, ht]
        · simp [sleepStep, hx, Ne.symm hx]
      · intro w
        obtain ⟨c, h1, h2⟩ := hc w
        exact ⟨c, by rw [call_append, h1]; simp [callStep], h2⟩
      all_goals (try simp only [upd_apply]); grind
    · simp at hs
  | next w =>
    simp only [step] at hs
    split at hs
    · rename_i hw0
      simp only [Option.some.injEq, Prod.mk.injEq] at hs
      obtain ⟨rfl, rfl⟩ := hs
      constructor <;> try dsimp only
      · intro x; rw [asleep_append, hl]; simp [sleepStep]
      · apply cal_other hc
        · intro x hx c; simp [callStep, Ne.symm hx]
        · intro c hcc; rw [hw0] at hcc; simp only [Pc.call] at hcc; subst hcc
          exact ⟨.next 0, by simp [callStep], rfl⟩
      all_goals (try simp only [upd_apply]); grind [Pc.has]
    · simp at hs
  | all w =>
    simp only [step] at hs
    split at hs
    · rename_i hw0
      simp only [Option.some.injEq, Prod.mk.injEq] at hs
      obtain ⟨rfl, rfl⟩ := hs
      constructor <;> try dsimp only
      · intro x; rw [asleep_append, hl]; simp [sleepStep]
      · apply cal_other hc
        · intro x hx c; simp [callStep, Ne.symm hx]
        · intro c hcc; rw [hw0] at hcc; simp only [Pc.call] at hcc; subst hcc
          exact ⟨.all false, by simp [callStep], rfl⟩
      all_goals (try simp only [upd_apply]); grind [Pc.has]
    · simp at hs
  | dequeue w u =>
    simp only [step] at hs
    split at hs
    · rename_i hm
      have hme : ∀ x, x ∈ s.queue.erase u ↔ x ≠ u ∧ x ∈ s.queue := fun x => hn.mem_erase_iff
      have hn' := hn.erase u
      split at hs
      · rename_i hw0
        simp only [Option.some.injEq, Prod.mk.injEq] at hs
        obtain ⟨rfl, rfl⟩ := hs
        constructor <;> try dsimp only
        · intro x; rw [asleep_append, hl]; rfl
        · apply cal_other hc
          · intro x hx c; simp
          · intro c hcc; rw [hw0] at hcc; exact ⟨c, by simp, hcc⟩
        all_goals (try simp only [upd_apply]); grind [Pc.has]
      · rename_i r hw0
        simp only [Option.some.injEq, Prod.mk.injEq] at hs
        obtain ⟨rfl, rfl⟩ := hs
        constructor <;> try dsimp only
        · intro x; rw [asleep_append, hl]; rfl
        · apply cal_other hc
          · intro x hx c; simp
          · intro c hcc; rw [hw0] at hcc; exact ⟨c, by simp, r, hcc⟩
        all_goals (try simp only [upd_apply]); grind [Pc.has]
      · simp at hs
    · simp at hs
  | dequeueNone w =>
    simp only [step] at hs
    split at hs
    · rename_i hm
      split at hs
      · rename_i hw0
        simp only [Option.some.injEq, Prod.mk.injEq] at hs
        obtain ⟨rfl, rfl⟩ := hs
        constructor <;> try dsimp only
        · intro x; rw [asleep_append, hl]; simp [sleepStep]
        · apply cal_other hc
          · intro x hx c; simp [callStep, Ne.symm hx]
          · intro c hcc; rw [hw0] at hcc; simp only [Pc.call] at hcc; subst hcc
            exact ⟨.out, by simp [callStep], rfl⟩
        all_goals (try simp only [upd_apply]); grind [Pc.has]
      · rename_i r hw0
        simp only [Option.some.injEq, Prod.mk.injEq] at hs
        obtain ⟨rfl, rfl⟩ := hs
        constructor <;> try dsimp only
        · intro x; rw [asleep_append, hl]; simp [sleepStep]
        · apply cal_other hc
          · intro x hx c; simp [callStep, Ne.symm hx]
          · intro c hcc; rw [hw0] at hcc; simp only [Pc.call] at hcc; subst hcc
            exact ⟨.out, by simp [callStep], rfl⟩
        all_goals (try simp only [upd_apply]); grind [Pc.has]
      · simp at hs
    · simp at hs
  | enqueue w =>
    simp only [step] at hs
    split at hs
    · rename_i u hw0
      simp only [Option.some.injEq, Prod.mk.injEq] at hs
      obtain ⟨rfl, rfl⟩ := hs
      have hu0 := hh w u (by simp [hw0, Pc.has])
      constructor <;> try dsimp only
      · intro x
        rw [asleep_append, hl, upd_apply]
        by_cases hx : x = u
        · subst hx; simp [sleepStep, hu0.1]
        · simp [sleepStep, hx, Ne.symm hx]
      · apply cal_other hc
        · intro x hx c; simp [callStep, Ne.symm hx]
        · intro c hcc; rw [hw0] at hcc; simp only [Pc.call] at hcc; subst hcc
          exact ⟨.out, by simp [callStep], rfl⟩
      all_goals (try simp only [upd_apply]); grind [Pc.has]
    · rename_i u hw0
      simp only [Option.some.injEq, Prod.mk.injEq] at hs
      obtain ⟨rfl, rfl⟩ := hs
      have hu0 := hh w u (by simp [hw0, Pc.has])
      constructor <;> try dsimp only
      · intro x
        rw [asleep_append, hl, upd_apply]
        by_cases hx : x = u
        · subst hx; simp [sleepStep, hu0.1]
        · simp [sleepStep, hx, Ne.symm hx]
      · apply cal_other hc
        · intro x hx c; simp [callStep, Ne.symm hx]
        · intro c hcc; rw [hw0] at hcc; simp only [Pc.call] at hcc; obtain ⟨r, rfl⟩ := hcc
          exact ⟨.all true, by simp [callStep], rfl⟩
      all_goals (try simp only [upd_apply]); grind [Pc.has]
    · simp at hs

theorem inv_of_reaches {s : St} {tr : List Ev} (h : machine.Reaches s tr) : Inv s tr :=
  h.inv Inv inv_init inv_step

/-- **C25 (1).**  No wake-up is duplicated or invented: every registered task is woken at most
once per registration, and only registered tasks are woken. -/
theorem hub_wakes_each_once (s : St) (tr : List Ev) (h : machine.Reaches s tr) (t : Nat) :
    asleep t tr ≠ none := by
  rw [(inv_of_reaches h).slp t]; simp

/-- **C25 (2).**  `may_wake_next` wakes at most one task and its result says whether it did;
`may_wake_all` returns true iff it woke somebody. -/
theorem hub_reports_truthfully (s : St) (tr : List Ev) (h : machine.Reaches s tr) (w : Nat) :
    call w tr ≠ none := by
  obtain ⟨c, h1, _⟩ := (inv_of_reaches h).cal w
  simp [h1]

theorem missed_of_reaches {s : St} {tr : List Ev} (h : machine.Reaches s tr) : NobodyMissed tr := by
  refine Machine.Reaches.inv' (M := machine) (fun _ tr => NobodyMissed tr) ?_ ?_ h
  · rintro p w (h | ⟨b, h⟩) <;> exact absurd h not_concat_prefix_nil
  clear h s tr
  intro s tr l s' e hr ih hs
  have hi := inv_of_reaches hr
  change step s l = some (s', e) at hs
  have old : ∀ p x, p ++ [x] <+: tr ++ e → (x ∉ e) → p ++ [x] <+: tr := by
    intro p x hp hx
    rcases prefix_append_cases hp with h | ⟨q, hq, hpq⟩
    · exact h
    · rcases List.eq_nil_or_concat q with rfl | ⟨q', y, rfl⟩
      · simp at hpq; simp [hpq]
      · rw [List.concat_eq_append, ← List.append_assoc] at hpq
        have := List.append_inj' hpq rfl
        simp at this
        exact absurd (hq.subset (by simp [this.2])) hx
  intro p w hp t ht
  by_cases hin : Ev.nextReturned w false ∈ e ∨ ∃ b, Ev.allReturned w b ∈ e
  · -- the step is `dequeueNone w`
    cases l with
    | dequeueNone w' =>
      have key : ∀ x, e = [x] → s.queue = [] → (s.pc w').has t = false →
          (x = .nextReturned w' false ∨ ∃ b, x = .allReturned w' b) →
          ∃ v, v ≠ w ∧ call v p ≠ some .out := by
        rintro x rfl hq hno hx
        have hw : w' = w := by rcases hx with rfl | ⟨b, rfl⟩ <;> simp at hin <;> exact hin.symm
        subst hw
        have hcase : (p ++ [.nextReturned w' false] <+: tr ∨ ∃ b, p ++ [.allReturned w' b] <+: tr) ∨ p = tr := by
          rcases hp with hp | ⟨b, hp⟩ <;> rw [concat_prefix_concat_iff] at hp
          · rcases hp with hp | hp
            · exact Or.inl (Or.inl hp)
            · exact Or.inr hp.1
          · rcases hp with hp | hp
            · exact Or.inl (Or.inr ⟨b, hp⟩)
            · exact Or.inr hp.1
        rcases hcase with hcase | rfl
        · exact ih p w' hcase t ht
        · rw [hi.slp t] at ht
          rcases hi.whereQ t (by simpa using ht) with hm | ⟨v, hv⟩
          · simp [hq] at hm
          · refine ⟨v, by rintro rfl; simp [hno] at hv, ?_⟩
            obtain ⟨c, hc1, hc2⟩ := hi.cal v
            rw [hc1]
            cases hpc : s.pc v <;> simp [hpc, Pc.has] at hv <;> simp [hpc, Pc.call] at hc2
            · simp [hc2]
            · rcases hc2 with rfl | rfl <;> simp
      simp only [step] at hs
      split at hs
      · rename_i hm
        split at hs
        · rename_i hw0
          simp only [Option.some.injEq, Prod.mk.injEq] at hs
          exact key _ hs.2.symm hm (by simp [hw0, Pc.has]) (Or.inl rfl)
        · rename_i r hw0
          simp only [Option.some.injEq, Prod.mk.injEq] at hs
          exact key _ hs.2.symm hm (by simp [hw0, Pc.has]) (Or.inr ⟨r, rfl⟩)
        · simp at hs
      · simp at hs
    | add t => simp only [step] at hs; grind
    | next t => simp only [step] at hs; grind
    | all t => simp only [step] at hs; grind
    | dequeue t u => simp only [step] at hs; grind
    | enqueue t => simp only [step] at hs; grind
  · rw [not_or, not_exists] at hin
    apply ih p w _ t ht
    rcases hp with hp | ⟨b, hp⟩
    · exact Or.inl (old _ _ hp hin.1)
    · exact Or.inr ⟨b, old _ _ hp (hin.2 b)⟩

/-- **C25 (3).**  When `may_wake_all` returns (or `may_wake_next` returns false), every task
still asleep at that moment is in the hands of another wake call in progress; so without
concurrent wake calls everybody has been woken. -/
theorem hub_nobody_missed (s : St) (tr : List Ev) (h : machine.Reaches s tr) : NobodyMissed tr :=
  missed_of_reaches h

/-- Non-vacuity: three waiters, two concurrent callers. -/
example : (machine.run [.add 1, .add 2, .add 3, .next 10, .all 11, .dequeue 11 1, .dequeue 10 2,
    .enqueue 11, .dequeue 11 3, .enqueue 11, .dequeueNone 11, .enqueue 10, .next 10, .dequeueNone 10]).map (·.2) =
    some [.registered 1, .registered 2, .registered 3, .nextCalled 10, .allCalled 11, .woken 11 1,
      .woken 11 3, .allReturned 11 true, .woken 10 2, .nextReturned 10 true, .nextCalled 10,
      .nextReturned 10 false] := rfl

end Verif.Hub
