import Verif.Reinit.Hist
import Verif.Common.AtEvent
/-!
# C86: starting the runtime again
-/

namespace Verif.Reinit
open Machine

theorem init_inv : Inv init := by
  constructor <;> simp [init]

theorem reach_all {s : St} {tr : List Ev} (h : machine.Reaches s tr) : (s.dead = false → Inv s ∧ Wp s none) ∧ Hist s tr ∧ Glob s tr ∧ Fresh s tr := by
  refine Reaches.inv (M := machine) (fun s tr => (s.dead = false → Inv s ∧ Wp s none) ∧ Hist s tr ∧ Glob s tr ∧ Fresh s tr) ?_ ?_ h
  · refine ⟨fun _ => ⟨init_inv, by simp [Wp, machine, init]⟩, ?_, ?_, ?_⟩
    · constructor <;> simp [machine, init]
    · constructor <;> simp [machine, init, up, down]
    · simp [Fresh, machine, init]
  · intro s tr l s' e hI hs
    have hn : s.dead = false := by
      simp only [machine, step] at hs
      split at hs
      · exact absurd hs (by simp)
      · simpa using ‹¬ s.dead = true›
    obtain ⟨h1, h2⟩ := hI.1 hn
    exact ⟨fun hd => step_inv h1 h2 hs hd, step_hist h1 h2 hI.2.1 hs, step_glob h1 hI.2.2.1 hs, step_fresh h1 hI.2.2.2 hs⟩

/-- Nothing has gone wrong so far. -/
def Sound (tr : List Ev) : Prop := .undefined ∉ tr ∧ .terminated ∉ tr

theorem sound_dead {s : St} {tr : List Ev} (h : machine.Reaches s tr) (hs : Sound tr) : s.dead = false := by
  have := (reach_all h).2.2.1.dead
  unfold Sound at hs
  grind

/-- A task is destroyed at most once, finished or not. -/
theorem once {s : St} {tr : List Ev} (h : machine.Reaches s tr) (t : Nat) : tr.count (.finished t) + tr.count (.dropped t) ≤ 1 := by
  have := (reach_all h).2.1.gone t
  grind

theorem reach_inv {s : St} {tr : List Ev} (h : machine.Reaches s tr) {l : Lbl} {r : St × List Ev} (hs : machine.step s l = some r) : Inv s := by
  refine ((reach_all h).1 ?_).1
  simp only [machine, step] at hs
  split at hs
  · exact absurd hs (by simp)
  · simpa using ‹¬ s.dead = true›

theorem step_began {s s' : St} {l : Lbl} {e q : List Ev} {t g : Nat} (hs : machine.step s l = some (s', e)) (hq : q ++ [.began t g] <+: e) :
    q = [] ∧ t ∈ s.queue ∧ g = s.gen := by
  have hm : Ev.began t g ∈ e := hq.subset (by simp)
  have hl := hq.length_le
  simp only [machine, step] at hs
  split at hs
  · exact absurd hs (by simp)
  cases l <;> simp only [stepLive, release, enqueue] at hs <;>
    (repeat' split at hs) <;>
    simp only [Option.some.injEq, Prod.mk.injEq, reduceCtorEq] at hs <;>
    (try obtain ⟨rfl, rfl⟩ := hs) <;>
    simp only [List.mem_cons, List.not_mem_nil, or_false, reduceCtorEq, Ev.began.injEq] at hm
  simp at hl
  grind

theorem step_returned {s s' : St} {l : Lbl} {e q : List Ev} {g : Nat} (hs : machine.step s l = some (s', e)) (hq : q ++ [.initReturned g] <+: e) :
    q = [] ∧ s.old = [] ∧ g = s.gen ∧ s.pc = .replacing := by
  have hm : Ev.initReturned g ∈ e := hq.subset (by simp)
  have hl := hq.length_le
  simp only [machine, step] at hs
  split at hs
  · exact absurd hs (by simp)
  cases l <;> simp only [stepLive, release, enqueue] at hs <;>
    (repeat' split at hs) <;>
    simp only [Option.some.injEq, Prod.mk.injEq, reduceCtorEq] at hs <;>
    (try obtain ⟨rfl, rfl⟩ := hs) <;>
    simp only [List.mem_cons, List.not_mem_nil, or_false, reduceCtorEq, Ev.initReturned.injEq] at hm
  simp at hl
  grind

/-- When the n-th runtime_init has returned, every task that an earlier runtime accepted and did not begin (as often as it was accepted) has been
destroyed. -/
theorem leftovers {s : St} {tr pre post : List Ev} {g g' t : Nat} (h : machine.Reaches s tr) (hx : tr = pre ++ .initReturned g :: post) (hg : g' < g)
    (hl : pre.count (.began t g') < pre.count (.accepted t g')) : .dropped t ∈ pre := by
  obtain ⟨s1, tr1, l, s2, e, q, hr, hst, hq, hpre⟩ := h.at_event hx
  obtain ⟨rfl, ho, rfl, hpc⟩ := step_returned hst hq
  simp only [List.append_nil] at hpre
  subst hpre
  have hh := (reach_all hr).2.1
  rcases hh.wh t g' hl with h1 | h1 | h1
  · omega
  · simp [ho] at h1
  · exact h1

/-- A task begins in the runtime that has accepted it, never in another one, and never after it was destroyed. -/
theorem begins_here {s : St} {tr pre post : List Ev} {g t : Nat} (h : machine.Reaches s tr) (hx : tr = pre ++ .began t g :: post) :
    pre.count (.began t g) < pre.count (.accepted t g) ∧ .dropped t ∉ pre ∧ .finished t ∉ pre := by
  obtain ⟨s1, tr1, l, s2, e, q, hr, hst, hq, hpre⟩ := h.at_event hx
  obtain ⟨rfl, ho, rfl⟩ := step_began hst hq
  simp only [List.append_nil] at hpre
  subst hpre
  have hh := (reach_all hr).2.1
  have hI := reach_inv hr hst
  have h1 := hh.qd t ho
  have h2 := hh.gone t
  have h3 : s1.place t ≠ .gone := by
    have := (hI.q t).2 (.inl ho)
    simp [this]
  simp only [h3, if_false] at h2
  refine ⟨by omega, ?_, ?_⟩
  · rw [← List.count_eq_zero]; omega
  · rw [← List.count_eq_zero]; omega

/-- Whenever a runtime is up - the first or a later one -, it accepts a task and can run it. -/
theorem accepts {s : St} {tr : List Ev} {g t : Nat} (h : machine.Reaches s tr) (hs : Sound tr) (hu : up tr none = some g) (ht : ∀ g', .accepted t g' ∉ tr) :
    ∃ s', machine.runFrom s [.spawn t, .take t] = some (s', [.accepted t g, .began t g]) := by
  have hd := sound_dead h hs
  obtain ⟨h1, h2, h3⟩ := (reach_all h).2.2.1.upr g hu
  have hp := (reach_all h).2.2.2 t ht
  simp only [runFrom, machine, step, hd, stepLive, hp, enqueue, h1]
  simp [hd, h1, h2]


/-- The runs of the main thread through the destruction of the old runtime. -/
theorem drop_all (n : Nat) : ∀ (s : St), s.dead = false → s.pc = .replacing → s.live = [] → s.old.length = n → (∀ t, t ∈ s.old → s.waiters t = []) →
    ∃ s', machine.runFrom s (List.replicate n .destroyOld ++ [.initStart]) = some (s', s.old.map .dropped ++ [.initReturned s.gen]) := by
  induction n with
  | zero =>
    intro s hd hp hl hn hw
    have ho : s.old = [] := List.eq_nil_of_length_eq_zero hn
    exact ⟨_, by simp [runFrom, machine, step, hd, stepLive, hp, hl, ho]; rfl⟩
  | succ n ih =>
    intro s hd hp hl hn hw
    obtain ⟨t, rest, ho⟩ : ∃ t rest, s.old = t :: rest := by
      cases h : s.old with
      | nil => simp [h] at hn
      | cons t rest => exact ⟨t, rest, rfl⟩
    have hwt : s.waiters t = [] := hw t (by simp [ho])
    obtain ⟨s', hr⟩ := ih { s with place := upd s.place t .gone, old := rest } hd hp hl (by simpa [ho] using hn) (fun x hx => hw x (by simp [ho, hx]))
    have h1 : machine.step s .destroyOld = some ({ s with place := upd s.place t .gone, old := rest }, [.dropped t]) := by
      simp [machine, step, hd, stepLive, hp, hl, ho, release, hwt]
    refine ⟨s', ?_⟩
    simp only [List.replicate_succ, List.cons_append, runFrom, h1, hr, ho]
    simp

/-- Full claim: after runtime_exit() has returned, runtime_init() returns with a new runtime, and destroys the tasks the old one has left over.
Proved if no task waits for a lock held by one of them; missing: `lock_refuted`. -/
theorem restart_partial {s : St} {tr : List Ev} (h : machine.Reaches s tr) (hs : Sound tr) (hd : down tr false = true)
    (hw : ∀ t, t ∈ s.queue → s.waiters t = []) :
    ∃ s', machine.runFrom s (.initCall :: .initMake :: List.replicate s.queue.length .destroyOld ++ [.initStart]) =
      some (s', .initCalled :: s.queue.map .dropped ++ [.initReturned (s.gen + 1)]) := by
  have hdd := sound_dead h hs
  obtain ⟨hI, -⟩ := (reach_all h).1 hdd
  obtain ⟨h1, h2⟩ := (reach_all h).2.2.1.dwn hd
  have hl := hI.st h1 h2
  obtain ⟨s', hr⟩ := drop_all s.queue.length { s with ptr := .fresh, gen := s.gen + 1, pc := .replacing, old := s.queue, queue := [], installed := true }
    hdd rfl hl rfl hw
  refine ⟨s', ?_⟩
  have a1 : machine.step s .initCall = some ({ s with pc := .handler, installed := true }, [.initCalled]) := by
    simp [machine, step, hdd, stepLive, h2]
  have a2 : machine.step { s with pc := .handler, installed := true } .initMake =
      some ({ s with ptr := .fresh, gen := s.gen + 1, pc := .replacing, old := s.queue, queue := [], installed := true }, []) := by
    simp [machine, step, hdd, stepLive]
  simp only [List.cons_append, runFrom, a1, a2, hr]
  simp

/-- Down, or inside the second runtime_init. -/
def Calm (s : St) : Prop :=
  s.live = [] ∧ ((s.ptr = .stopped ∧ s.pc ≠ .replacing) ∨ s.ptr = .fresh) ∧ (∀ t, t ∈ s.queue ∨ t ∈ s.old → s.waiters t = [])

theorem calm_step {s s' : St} {l : Lbl} {e : List Ev} (h : Calm s) (h1 : l ≠ .sigint) (h2 : ∀ t, l ≠ .spawn t) (hs : machine.step s l = some (s', e)) :
    Sound e ∧ (Calm s' ∨ ∃ g, .initReturned g ∈ e) := by
  unfold Calm at *
  obtain ⟨a, b, c⟩ := h
  simp only [machine, step] at hs
  split at hs
  · exact absurd hs (by simp)
  unfold Sound
  cases l <;> simp only [stepLive, release, enqueue] at hs <;>
    (repeat' split at hs) <;>
    simp only [Option.some.injEq, Prod.mk.injEq, reduceCtorEq] at hs <;>
    (try obtain ⟨rfl, rfl⟩ := hs) <;>
    simp only [List.mem_cons, List.not_mem_nil, or_false, reduceCtorEq] <;> grind

/-- ... and whatever else happens at the same time (but a SIGINT, and tasks enqueued by other threads), nothing goes wrong before it returns. -/
theorem restart_safe_partial {s s' : St} {tr e : List Ev} {ls : List Lbl} (h : machine.Reaches s tr) (hs : Sound tr) (hd : down tr false = true)
    (hw : ∀ t, t ∈ s.queue → s.waiters t = []) (hls : ∀ l, l ∈ ls → l ≠ .sigint ∧ ∀ t, l ≠ .spawn t) (hr : machine.runFrom s ls = some (s', e))
    (he : ∀ g, .initReturned g ∉ e) : Sound e := by
  have hdd := sound_dead h hs
  obtain ⟨hI, -⟩ := (reach_all h).1 hdd
  obtain ⟨h1, h2⟩ := (reach_all h).2.2.1.dwn hd
  have hc : Calm s := by
    refine ⟨hI.st h1 h2, .inl ⟨h1, by simp [h2]⟩, ?_⟩
    intro t ht
    have : s.old = [] := by
      have := hI.olr
      grind
    simp [this] at ht
    exact hw t ht
  clear h hs hd hw hdd hI h1 h2
  induction ls generalizing s e with
  | nil =>
    simp only [runFrom, Option.some.injEq, Prod.mk.injEq] at hr
    obtain ⟨-, rfl⟩ := hr
    simp [Sound]
  | cons l ls ih =>
    simp only [runFrom] at hr
    split at hr
    · exact absurd hr (by simp)
    · rename_i s1 e1 hs1
      split at hr
      · exact absurd hr (by simp)
      · rename_i s2 e2 hs2
        simp only [Option.some.injEq, Prod.mk.injEq] at hr
        obtain ⟨rfl, rfl⟩ := hr
        obtain ⟨hl1, hl2⟩ := hls l (by simp)
        obtain ⟨b1, b2⟩ := calm_step hc hl1 hl2 hs1
        rcases b2 with b2 | ⟨g, b2⟩
        · have := ih (fun x hx => hls x (by simp [hx])) hs2 (fun g hg => he g (by simp [hg])) b2
          unfold Sound at *
          simp only [List.mem_append]
          grind
        · exact absurd (by simp [b2]) (he g)

/-- A task is left over and some task waits for the lock it holds. -/
def Locked (t : Nat) (s : St) : Prop :=
  s.dead = true ∨ (Inv s ∧ Wp s none ∧ s.live = [] ∧ s.waiters t ≠ [] ∧
    ((s.ptr = .stopped ∧ s.pc ≠ .replacing ∧ t ∈ s.queue) ∨ (s.ptr = .fresh ∧ t ∈ s.old)))

theorem locked_step {t : Nat} {s s' : St} {l : Lbl} {e : List Ev} (h : Locked t s) (hs : machine.step s l = some (s', e)) :
    Locked t s' ∧ ∀ g, .initReturned g ∉ e := by
  rcases h with h | ⟨hI, hp, hl, hw, hc⟩
  · simp [machine, step, h] at hs
  · have hinv := step_inv hI hp hs
    by_cases hd : s'.dead = true
    · refine ⟨.inl hd, ?_⟩
      clear hinv
      intro g hm
      simp only [machine, step] at hs
      split at hs
      · exact absurd hs (by simp)
      cases l <;> simp only [stepLive, release, enqueue] at hs <;>
        (repeat' split at hs) <;>
        simp only [Option.some.injEq, Prod.mk.injEq, reduceCtorEq] at hs <;>
        (try obtain ⟨rfl, rfl⟩ := hs) <;>
        simp only [List.mem_cons, List.not_mem_nil, or_false, reduceCtorEq] at hm
      grind
    · obtain ⟨i1, i2⟩ := hinv (by simpa using hd)
      unfold Locked
      have w := hI.w
      have q := hI.q
      have fr := hI.fr
      have olr := hI.olr
      suffices hh : (s'.live = [] ∧ s'.waiters t ≠ [] ∧
          ((s'.ptr = .stopped ∧ s'.pc ≠ .replacing ∧ t ∈ s'.queue) ∨ (s'.ptr = .fresh ∧ t ∈ s'.old))) ∧ ∀ g, .initReturned g ∉ e from
        ⟨.inr ⟨i1, i2, hh.1⟩, hh.2⟩
      clear i1 i2 hinv
      simp only [machine, step] at hs
      split at hs
      · exact absurd hs (by simp)
      cases l <;> simp only [stepLive, release, enqueue] at hs <;>
        (repeat' split at hs) <;>
        simp only [Option.some.injEq, Prod.mk.injEq, reduceCtorEq] at hs <;>
        (try obtain ⟨rfl, rfl⟩ := hs) <;>
        simp only [List.mem_cons, List.not_mem_nil, or_false, reduceCtorEq] <;> grind

/-- If a task left over by the first runtime holds a lock that somebody waits for, the second runtime_init never returns, whatever happens. -/
theorem lock_refuted {s s' : St} {tr e : List Ev} {ls : List Lbl} {t : Nat} (h : machine.Reaches s tr) (hs : Sound tr) (hd : down tr false = true)
    (ht : t ∈ s.queue) (hw : s.waiters t ≠ []) (hr : machine.runFrom s ls = some (s', e)) (g : Nat) : .initReturned g ∉ e := by
  have hdd := sound_dead h hs
  obtain ⟨hI, hp⟩ := (reach_all h).1 hdd
  obtain ⟨h1, h2⟩ := (reach_all h).2.2.1.dwn hd
  have hc : Locked t s := .inr ⟨hI, hp, hI.st h1 h2, hw, .inl ⟨h1, by simp [h2], ht⟩⟩
  have := runFrom_inv machine (fun s tr => Locked t s ∧ ∀ g, .initReturned g ∉ tr)
    (fun s tr l s' e hI hs => ⟨(locked_step hI.1 hs).1, fun g hm => by
      rcases List.mem_append.1 hm with hm | hm
      · exact hI.2 g hm
      · exact (locked_step hI.1 hs).2 g hm⟩) ls s [] s' e ⟨hc, by simp⟩ hr
  simpa using this.2 g

/-- It is undefined behaviour: task 1 has a lock and yields, task 2 waits for the lock, the runtime is stopped and started again. -/
theorem lock_witness : ∃ s tr, machine.Reaches s tr ∧ Sound tr ∧ down tr false = true ∧ 1 ∈ s.queue ∧ s.waiters 1 ≠ [] ∧
    ∃ s' e, machine.runFrom s [.initCall, .initMake, .destroyOld] = some (s', e) ∧ e = [.initCalled, .dropped 1, .undefined] := by
  refine ⟨_, [.initCalled, .initReturned 1, .accepted 1 1, .began 1 1, .accepted 2 1, .began 2 1, .blocked 2 1, .accepted 1 1, .exitCalled, .exitReturned 1],
    ⟨[.initCall, .initMake, .initStart, .spawn 1, .take 1, .spawn 2, .take 2, .block 2 1, .yield 1, .exitCall, .stopped], rfl⟩,
    by simp [Sound], rfl, by decide, by decide, _, _, rfl, rfl⟩

/-- The first SIGINT after the restart terminates the program if the first runtime had been stopped by a SIGINT. -/
theorem sigint_refuted {s : St} {tr : List Ev} {g : Nat} (h : machine.Reaches s tr) (hs : Sound tr) (hu : up tr none = some g) (hm : .sigint ∈ tr) :
    ∃ s', machine.step s .sigint = some (s', [.sigint, .terminated]) := by
  have hdd := sound_dead h hs
  obtain ⟨-, hG, -⟩ := (reach_all h).2
  obtain ⟨h1, h2, h3⟩ := hG.upr g hu
  exact ⟨_, by simp [machine, step, stepLive, hdd, hG.sig hm, hG.inst (by simp [h1]), h3]; rfl⟩

theorem sigint_witness : ∃ s tr, machine.Reaches s tr ∧ Sound tr ∧ up tr none = some 2 ∧ .sigint ∈ tr :=
  ⟨_, [.initCalled, .initReturned 1, .sigint, .exitReturned 1, .initCalled, .initReturned 2],
    ⟨[.initCall, .initMake, .initStart, .sigint, .stopped, .initCall, .initMake, .initStart], rfl⟩, by simp [Sound], rfl, by simp⟩

/-- Where no SIGINT arrived before, the first one stops the new runtime gracefully. -/
theorem sigint_first {s : St} {tr : List Ev} {g : Nat} (h : machine.Reaches s tr) (hs : Sound tr) (hu : up tr none = some g) (hm : .sigint ∉ tr) :
    ∃ s', machine.step s .sigint = some (s', [.sigint]) := by
  have hdd := sound_dead h hs
  obtain ⟨-, hG, -⟩ := (reach_all h).2
  obtain ⟨h1, h2, h3⟩ := hG.upr g hu
  have hc : s.called = false := by
    have := hG.sgn
    grind
  exact ⟨_, by simp [machine, step, stepLive, hdd, hc, hG.inst (by simp [h1]), h3, h1]; rfl⟩

/-- runtime_exit without runtime_init, and a SIGINT inside the first runtime_init, are undefined behaviour. -/
theorem early_refuted : (∃ s', machine.step init .exitCall = some (s', [.exitCalled, .undefined])) ∧
    (∃ s', machine.runFrom init [.initCall, .sigint] = some (s', [.initCalled, .sigint, .undefined])) := ⟨⟨_, rfl⟩, ⟨_, rfl⟩⟩

/-- runtime_init while the first runtime is up and a task runs: the task yields, undefined behaviour. -/
theorem init_twice_refuted : ∃ s, machine.Reaches s [.initCalled, .initReturned 1, .accepted 1 1, .began 1 1, .initCalled, .undefined] :=
  ⟨_, [.initCall, .initMake, .initStart, .spawn 1, .take 1, .initCall, .initMake, .yield 1], rfl⟩

/-- Two tasks, one of them left over; both runtimes run a task. -/
theorem restart_nontrivial : ∃ s tr, machine.Reaches s tr ∧ Sound tr ∧ down tr false = true ∧ s.queue = [1] ∧ s.waiters 1 = [] ∧
    ∃ s' e, machine.runFrom s [.initCall, .initMake, .destroyOld, .initStart, .spawn 3, .take 3] = some (s', e) ∧
      e = [.initCalled, .dropped 1, .initReturned 2, .accepted 3 2, .began 3 2] := by
  refine ⟨_, [.initCalled, .initReturned 1, .accepted 1 1, .began 1 1, .accepted 2 1, .began 2 1, .accepted 1 1, .exitCalled, .finished 2, .exitReturned 1],
    ⟨[.initCall, .initMake, .initStart, .spawn 1, .take 1, .spawn 2, .take 2, .yield 1, .exitCall, .finish 2, .stopped], rfl⟩,
    by simp [Sound], rfl, by decide, by decide, _, _, rfl, rfl⟩

end Verif.Reinit
