import Verif.Monitor.Model
import Verif.Common.AtEvent
/-!
# C52, C66
-/

namespace Verif.Monitor

/-- the mutex a thread is registering -/
def Pc.regs : Pc → Option Nat
  | .once m | .regWait m | .regHeld m | .regDone m => some m
  | _ => none

/-- the mutex a thread is destroying -/
def Pc.kills : Pc → Option Nat
  | .dtor m | .deregWait m | .deregHeld m | .deregDone m => some m
  | _ => none

def Pc.writes : Pc → Bool
  | .regHeld _ | .deregHeld _ => true
  | _ => false

def Pc.prints : Pc → Bool
  | .printing _ _ => true
  | _ => false

/-- the mutex should be in the map -/
def Should (s : St) (m : Nat) : Prop :=
  (∃ t, s.once m = .running t ∧ s.pc t = .regDone m) ∨
    (s.once m = .done ∧ (s.obj m = .alive ∨ ∃ t, s.obj m = .dying t ∧ s.pc t ≠ .deregDone m))

structure Inv (s : St) : Prop where
  regs : ∀ t m, (s.pc t).regs = some m ↔ s.once m = .running t
  regsAlive : ∀ t m, s.once m = .running t → s.obj m = .alive
  kills : ∀ t m, (s.pc t).kills = some m ↔ s.obj m = .dying t
  writer : ∀ t, s.writer = some t ↔ (s.pc t).writes = true
  readers : ∀ t, t ∈ s.readers ↔ (s.pc t).prints = true
  excl : s.writer ≠ none → s.readers = []
  rnodup : s.readers.Nodup
  nodup : (keys s.map).Nodup
  mem : ∀ m, m ∈ keys s.map ↔ Should s m
  printing : ∀ t r d, s.pc t = .printing r d → (d ++ r).Perm (keys s.map)

theorem keys_erase (map : List (Nat × Nat)) (m x : Nat) : x ∈ keys (erase map m) ↔ x ∈ keys map ∧ x ≠ m := by
  simp only [keys, erase, List.mem_map, List.mem_filter, bne_iff_ne]
  grind

theorem keys_assign (map : List (Nat × Nat)) (m i x : Nat) : x ∈ keys (assign map m i) ↔ x = m ∨ x ∈ keys map := by
  have := keys_erase map m x
  simp only [keys, erase, assign, List.map_cons, List.mem_cons] at *
  grind

theorem nodup_erase (map : List (Nat × Nat)) (m : Nat) (h : (keys map).Nodup) : (keys (erase map m)).Nodup := by
  unfold keys erase at *
  exact h.sublist (List.filter_sublist.map _)

theorem nodup_assign (map : List (Nat × Nat)) (m i : Nat) (h : (keys map).Nodup) : (keys (assign map m i)).Nodup := by
  have h1 := nodup_erase map m h
  have h2 := keys_erase map m m
  simp only [keys, erase, assign, List.map_cons, List.nodup_cons] at *
  grind

theorem inv_init : Inv init := by
  constructor <;> simp [init, Pc.regs, Pc.kills, Pc.writes, Pc.prints, keys, Should]

theorem inv_step (s : St) (l : Lbl) (s' : St) (e : List Ev) (h : Inv s) (hs : step s l = some (s', e)) : Inv s' := by
  obtain ⟨regs, regsAlive, kills, writer, readers, excl, rnodup, nodup, mem, printing⟩ := h
  simp only [step] at hs
  split at hs
  · simp at hs
  cases l with
  | construct m =>
    simp only [stepLive] at hs
    (repeat' split at hs) <;> simp only [Option.some.injEq, Prod.mk.injEq, reduceCtorEq] at hs <;> obtain ⟨rfl, rfl⟩ := hs
    constructor <;> (try dsimp only)
    · intro a b; have := regs a b; have := regsAlive a b; simp only [upd_apply]; grind
    · intro a b; have := regsAlive a b; simp only [upd_apply]; grind
    · intro a b; have := kills a b; simp only [upd_apply]; grind
    · exact writer
    · exact readers
    · exact excl
    · exact rnodup
    · exact nodup
    · intro a; have h1 := mem a; have h2 := regsAlive; unfold Should at *; simp only [upd_apply]; grind
    · exact printing
  | _ =>
    simp only [stepLive] at hs
    (repeat' split at hs) <;> simp only [Option.some.injEq, Prod.mk.injEq, reduceCtorEq] at hs <;> obtain ⟨rfl, rfl⟩ := hs <;>
    (constructor <;> (try dsimp only)) 
    all_goals first
      | assumption
      | (intro a b; have := regs a b; have := regsAlive a b; have := kills a b; simp only [upd_apply]; grind [Pc.regs, Pc.kills])
      | (intro a; have := writer a; have := readers a; simp only [upd_apply]; grind [Pc.writes, Pc.prints])
      | (intro a; have h1 := mem a; have r := fun t => regs t a; have k := fun t => kills t a; clear mem regs kills printing
         simp only [Should, upd_apply, keys_assign, keys_erase] at *; grind [Pc.regs, Pc.kills])
      | (intro hw; simp at hw; done)
      | (rw [List.nodup_cons]; refine ⟨?_, rnodup⟩; rw [readers]; grind [Pc.prints])
      | exact nodup_assign _ _ _ nodup
      | exact nodup_erase _ _ nodup
      | grind
      | (intro a b c; have := printing a b c; simp only [upd_apply]; grind)

theorem reach_inv {s : St} {tr : List Ev} (h : machine.Reaches s tr) : Inv s :=
  Machine.Reaches.inv (M := machine) (fun s _ => Inv s) inv_init (fun s _ l s' e hi hs => inv_step s l s' e hi hs) h

theorem step_single (s : St) (l : Lbl) (s' : St) (e : List Ev) (hs : machine.step s l = some (s', e)) : e.length ≤ 1 := by
  simp only [machine, step] at hs
  split at hs
  · simp at hs
  cases l <;> simp only [stepLive] at hs <;> (repeat' split at hs) <;>
    simp only [Option.some.injEq, Prod.mk.injEq, reduceCtorEq] at hs <;> obtain ⟨rfl, rfl⟩ := hs <;> simp

theorem mem_erase (map : List (Nat × Nat)) (m x i : Nat) : (x, i) ∈ erase map m ↔ (x, i) ∈ map ∧ x ≠ m := by
  simp [erase]

theorem mem_assign (map : List (Nat × Nat)) (m j x i : Nat) :
    (x, i) ∈ assign map m j ↔ (x = m ∧ i = j) ∨ ((x, i) ∈ map ∧ x ≠ m) := by
  simp [assign]

theorem mem_keys (map : List (Nat × Nat)) (x : Nat) : x ∈ keys map ↔ ∃ i, (x, i) ∈ map := by
  simp [keys]

structure TInv (s : St) (tr : List Ev) : Prop where
  ex : ∀ m, Exists m tr ↔ s.obj m ≠ .absent
  use : ∀ m, InUse m tr → s.obj m = .alive ∧ s.once m = .done
  regd : ∀ m i, OpenIn (.registered m i) (.freed m) tr → (m, i) ∈ s.map ∨ ∃ t, s.pc t = .deregDone m
  regd' : ∀ m i, (m, i) ∈ s.map → OpenIn (.registered m i) (.freed m) tr
  ids : ∀ m i, Ev.registered m i ∈ tr → i < s.maxid
  clean : s.cleaning = true → Ev.stopped ∈ tr

theorem tinv_init : TInv init [] := by
  constructor <;> simp [init, Exists, InUse, not_openIn_nil]

theorem tinv_step (s : St) (tr : List Ev) (l : Lbl) (s' : St) (e : List Ev) (hI : Inv s) (h : TInv s tr) (hs : step s l = some (s', e)) :
    TInv s' (tr ++ e) := by
  obtain ⟨ex, use, regd, regd', ids, clean⟩ := h
  obtain ⟨regs, regsAlive, kills, -, -, -, -, -, mem, -⟩ := hI
  simp only [step] at hs
  split at hs
  · simp at hs
  have memP : ∀ m i, (m, i) ∈ s.map → Should s m := fun m i hm => (mem m).1 ((mem_keys _ _).2 ⟨i, hm⟩)
  cases l with
  | _ =>
    simp only [stepLive] at hs
    (repeat' split at hs) <;> simp only [Option.some.injEq, Prod.mk.injEq, reduceCtorEq] at hs <;> obtain ⟨rfl, rfl⟩ := hs <;>
    (constructor <;> (try dsimp only)) <;> (try rw [List.append_nil])
    all_goals first
      | assumption
      | (intro a; have := ex a; simp only [Exists, openIn_concat, upd_apply] at *; grind [Pc.kills])
      | (intro a; have := use a; have := regsAlive; have r := fun t => regs t a; simp only [InUse, openIn_concat, upd_apply] at *; grind [Pc.kills, Pc.regs])
      | (intro a i; have := regd a i; have := memP a i; have r := fun t => regs t a; have k := fun t => kills t a; clear regd mem memP regs kills
         simp only [openIn_concat, upd_apply, mem_assign, mem_erase, Should] at *; grind [Pc.kills, Pc.regs])
      | (intro a i; have := regd' a i; have := memP a i; simp only [openIn_concat, upd_apply, mem_assign, mem_erase, Should] at *; grind [Pc.kills, Pc.regs])
      | (intro a i; have := ids a i; simp only [List.mem_append, List.mem_singleton] at *; grind)
      | (simp only [List.mem_append, List.mem_singleton] at *; grind)

theorem reach_tinv {s : St} {tr : List Ev} (h : machine.Reaches s tr) : TInv s tr :=
  Machine.Reaches.inv' (M := machine) TInv tinv_init (fun s tr l s' e hr hi hs => tinv_step s tr l s' e (reach_inv hr) hi hs) h

/-- from an event to the state and step that emitted it -/
theorem at_ev {s : St} {tr p q : List Ev} {x : Ev} (h : machine.Reaches s tr) (hx : tr = p ++ x :: q) :
    ∃ s1 l s2, machine.Reaches s1 p ∧ stepLive s1 l = some (s2, [x]) := by
  obtain ⟨s1, l, s2, hr, hs⟩ := h.at_event_single step_single hx
  simp only [machine, step] at hs
  split at hs
  · simp at hs
  · exact ⟨s1, l, s2, hr, hs⟩

/-- **C52.**  Whatever threads construct, use and destroy mutexes meanwhile: print_status() lists every mutex that has been used and whose destruction has not begun, each once,
and lists only mutexes that exist and have been registered. -/
theorem monitor_lists_live_used (s : St) (tr : List Ev) (h : machine.Reaches s tr) (p q : List Ev) (ms : List Nat)
    (hx : tr = p ++ .printed ms :: q) :
    ms.Nodup ∧ (∀ m, InUse m p → m ∈ ms) ∧ ∀ m ∈ ms, Exists m p ∧ ∃ i, OpenIn (.registered m i) (.freed m) p := by
  obtain ⟨s1, l, s2, hr, hs⟩ := at_ev h hx
  have hi := reach_inv hr
  have ht := reach_tinv hr
  cases l <;> simp only [stepLive] at hs <;> (repeat' split at hs) <;>
    simp only [Option.some.injEq, Prod.mk.injEq, reduceCtorEq, List.cons.injEq, Ev.printed.injEq, and_true, and_false, List.nil_eq] at hs
  rename_i hpc
  obtain ⟨-, rfl⟩ := hs
  have hp := hi.printing _ _ _ hpc
  rw [List.append_nil] at hp
  refine ⟨hp.nodup_iff.2 hi.nodup, fun m hm => ?_, fun m hm => ?_⟩
  · rw [hp.mem_iff, hi.mem]
    obtain ⟨h1, h2⟩ := ht.use m hm
    exact Or.inr ⟨h2, Or.inl h1⟩
  · rw [hp.mem_iff] at hm
    obtain ⟨i, hk⟩ := (mem_keys _ _).1 hm
    refine ⟨(ht.ex m).2 ?_, i, ht.regd' m i hk⟩
    rcases (hi.mem m).1 hm with ⟨t, h1, -⟩ | ⟨-, h1 | ⟨t, h1, -⟩⟩
    · rw [hi.regsAlive t m h1]; simp
    · rw [h1]; simp
    · rw [h1]; simp

/-- **C52.**  print_status() never dereferences a pointer to a mutex that is gone. -/
theorem monitor_touches_live (s : St) (tr : List Ev) (h : machine.Reaches s tr) (p q : List Ev) (m : Nat)
    (hx : tr = p ++ .touched m :: q) : Exists m p := by
  obtain ⟨s1, l, s2, hr, hs⟩ := at_ev h hx
  have hi := reach_inv hr
  have ht := reach_tinv hr
  cases l <;> simp only [stepLive] at hs <;> (repeat' split at hs) <;>
    simp only [Option.some.injEq, Prod.mk.injEq, reduceCtorEq, List.cons.injEq, Ev.touched.injEq, and_true, and_false, List.nil_eq] at hs
  rename_i m1 rest done hpc
  obtain ⟨-, rfl⟩ := hs
  have hp := hi.printing _ _ _ hpc
  have hm := hp.mem_iff.1 (show m1 ∈ done ++ m1 :: rest by simp)
  refine (ht.ex _).2 ?_
  rcases (hi.mem _).1 hm with ⟨t, h1, -⟩ | ⟨-, h1 | ⟨t, h1, -⟩⟩
  · rw [hi.regsAlive t _ h1]; simp
  · rw [h1]; simp
  · rw [h1]; simp

/-- **C52.**  A mutex is registered while it exists, at most once in its life, under a number never used before. -/
theorem monitor_registers_once (s : St) (tr : List Ev) (h : machine.Reaches s tr) (p q : List Ev) (m i : Nat)
    (hx : tr = p ++ .registered m i :: q) :
    Exists m p ∧ (∀ j, ¬ OpenIn (.registered m j) (.freed m) p) ∧ ∀ m', Ev.registered m' i ∉ p := by
  obtain ⟨s1, l, s2, hr, hs⟩ := at_ev h hx
  have hi := reach_inv hr
  have ht := reach_tinv hr
  cases l <;> simp only [stepLive] at hs <;> (repeat' split at hs) <;>
    simp only [Option.some.injEq, Prod.mk.injEq, reduceCtorEq, List.cons.injEq, Ev.registered.injEq, and_true, and_false, List.nil_eq] at hs
  rename_i hpc
  obtain ⟨-, rfl, rfl⟩ := hs
  have ho := (hi.regs _ _).1 (show (s1.pc _).regs = some _ by rw [hpc]; rfl)
  have ha := hi.regsAlive _ _ ho
  refine ⟨(ht.ex _).2 (by rw [ha]; simp), fun j hj => ?_, fun m' hm' => ?_⟩
  · rcases ht.regd _ _ hj with hk | ⟨t, hk⟩
    · rcases (hi.mem _).1 ((mem_keys _ _).2 ⟨_, hk⟩) with ⟨t, h1, h2⟩ | ⟨h1, -⟩
      · rw [ho] at h1; cases h1; rw [hpc] at h2; cases h2
      · rw [ho] at h1; cases h1
    · have := (hi.kills t _).1 (by rw [hk]; rfl)
      rw [ha] at this; cases this
  · have := ht.ids _ _ hm'; omega

/-- **C52.**  The first use registers: a mutex that was used and is not being destroyed has been registered in its present life. -/
theorem monitor_used_is_registered (s : St) (tr : List Ev) (h : machine.Reaches s tr) (m : Nat) (hm : InUse m tr) :
    ∃ i, OpenIn (.registered m i) (.freed m) tr ∧ (m, i) ∈ s.map := by
  have hi := reach_inv h
  have ht := reach_tinv h
  obtain ⟨h1, h2⟩ := ht.use m hm
  obtain ⟨i, hk⟩ := (mem_keys _ _).1 ((hi.mem m).2 (Or.inr ⟨h2, Or.inl h1⟩))
  exact ⟨i, ht.regd' m i hk, hk⟩

/-- **C52.**  No dangling entry: what the map contains exists. -/
theorem monitor_no_dangling (s : St) (tr : List Ev) (h : machine.Reaches s tr) (m i : Nat) (hm : (m, i) ∈ s.map) : Exists m tr := by
  have hi := reach_inv h
  refine ((reach_tinv h).ex m).2 ?_
  rcases (hi.mem m).1 ((mem_keys _ _).2 ⟨i, hm⟩) with ⟨t, h1, -⟩ | ⟨-, h1 | ⟨t, h1, -⟩⟩
  · rw [hi.regsAlive t m h1]; simp
  · rw [h1]; simp
  · rw [h1]; simp

/-- No deadlock: as long as a thread is inside acquire(), a destructor or print_status(), some such thread can go on. -/
theorem monitor_progress (s : St) (tr : List Ev) (h : machine.Reaches s tr) (hterm : s.term = false) (t : Nat) (ht : s.pc t ≠ .idle) :
    ∃ t' l s' e, s.pc t' ≠ .idle ∧ machine.step s l = some (s', e) ∧ (l = .check t' ∨ l = .lock t' ∨ l = .body t' ∨ l = .finish t' ∨ l = .visit t') := by
  have hi := reach_inv h
  have hstep : ∀ l, machine.step s l = stepLive s l := fun l => by simp [machine, step, hterm]
  by_cases hw : s.writer = none
  · by_cases hr : s.readers = []
    · cases hp : s.pc t with
      | idle => exact absurd hp ht
      | once m | dtor m =>
        cases hc : s.cleaning with
        | false => exact ⟨t, .check t, _, _, by simp [hp], by rw [hstep]; simp only [stepLive, hp, hc]; rfl, by simp⟩
        | true => exact ⟨t, .check t, _, _, by simp [hp], by rw [hstep]; simp only [stepLive, hp, hc]; rfl, by simp⟩
      | regWait m | deregWait m => exact ⟨t, .lock t, _, _, by simp [hp], by rw [hstep]; simp only [stepLive, hp, if_pos (And.intro hw hr)]; rfl, by simp⟩
      | regHeld m | deregHeld m => exact ⟨t, .body t, _, _, by simp [hp], by rw [hstep]; simp only [stepLive, hp]; rfl, by simp⟩
      | regDone m | deregDone m => exact ⟨t, .finish t, _, _, by simp [hp], by rw [hstep]; simp only [stepLive, hp]; rfl, by simp⟩
      | printing r d =>
        cases r with
        | nil => exact ⟨t, .visit t, _, _, by simp [hp], by rw [hstep]; simp only [stepLive, hp]; rfl, by simp⟩
        | cons a r => exact ⟨t, .visit t, _, _, by simp [hp], by rw [hstep]; simp only [stepLive, hp]; rfl, by simp⟩
    · obtain ⟨u, hu⟩ := List.exists_mem_of_ne_nil _ hr
      have hu := (hi.readers u).1 hu
      cases hp : s.pc u with
      | printing r d =>
        cases r with
        | nil => exact ⟨u, .visit u, _, _, by simp [hp], by rw [hstep]; simp only [stepLive, hp]; rfl, by simp⟩
        | cons a r => exact ⟨u, .visit u, _, _, by simp [hp], by rw [hstep]; simp only [stepLive, hp]; rfl, by simp⟩
      | _ => rw [hp] at hu; simp [Pc.prints] at hu
  · obtain ⟨u, hu⟩ := Option.ne_none_iff_exists'.1 hw
    have hu := (hi.writer u).1 hu
    cases hp : s.pc u with
    | regHeld m | deregHeld m => exact ⟨u, .body u, _, _, by simp [hp], by rw [hstep]; simp only [stepLive, hp]; rfl, by simp⟩
    | _ => rw [hp] at hu; simp [Pc.writes] at hu

/-- **C66, proved part.**  Using and destroying mutexes terminates the program only after event_loop::stop(). -/
theorem mutex_terminates_only_after_stop_partial (s : St) (tr : List Ev) (h : machine.Reaches s tr) (p q : List Ev)
    (hx : tr = p ++ .terminated :: q) : Ev.stopped ∈ p ∧ q = [] := by
  obtain ⟨s1, l, s2, hr, hs⟩ := at_ev h hx
  refine ⟨?_, ?_⟩
  · refine (reach_tinv hr).clean ?_
    cases l <;> simp only [stepLive] at hs <;> (repeat' split at hs) <;>
      simp only [Option.some.injEq, Prod.mk.injEq, reduceCtorEq, List.cons.injEq, and_true, and_false, List.nil_eq] at hs <;> assumption
  · have key := Machine.Reaches.inv (M := machine) (fun s tr => ∀ p q, tr = p ++ Ev.terminated :: q → q = [] ∧ s.term = true) ?_ ?_ h
    · exact (key p q hx).1
    · intro p q hq; simp at hq
    · intro s tr l s' e hi hs p q hq
      have h1 := step_single _ _ _ _ hs
      have hs0 := hs
      simp only [machine, step] at hs
      split at hs
      · simp at hs
      rename_i hnt
      match e, h1, hs, hq with
      | [], _, hs, hq => rw [List.append_nil] at hq; exact absurd (hi p q hq).2 hnt
      | [x], _, hs, hq =>
        rcases append_singleton_split hq with ⟨rfl, rfl, -⟩ | ⟨b', -, hb⟩
        · refine ⟨rfl, ?_⟩
          cases l <;> simp only [stepLive] at hs <;> (repeat' split at hs) <;>
            simp only [Option.some.injEq, Prod.mk.injEq, reduceCtorEq, List.cons.injEq, and_true, and_false, List.nil_eq] at hs <;>
            rw [← hs]
        · exact absurd (hi p b' hb).2 hnt

/-- **C66, refuted.**  A program that uses a mutex, stops the runtime and then destroys the mutex is terminated; so is one that merely constructs and destroys one, and one that
calls try_acquire(). -/
theorem mutex_after_stop_refuted :
    (∃ s, machine.Reaches s [.constructed 0, .registered 0 0, .used 0, .stopped, .dying 0, .terminated]) ∧
    (∃ s, machine.Reaches s [.stopped, .constructed 0, .dying 0, .terminated]) ∧
    ∃ s, machine.Reaches s [.stopped, .constructed 0, .terminated] :=
  ⟨⟨_, [.construct 0, .acquire 0 0, .check 0, .lock 0, .body 0, .finish 0, .stop, .destroy 0 0, .check 0], rfl⟩,
   ⟨_, [.stop, .construct 0, .destroy 0 0, .check 0], rfl⟩,
   ⟨_, [.stop, .construct 0, .acquire 0 0, .check 0], rfl⟩⟩

/-- two mutexes, one destroyed and its address used again, a third thread printing -/
example : ∃ s, machine.Reaches s [.constructed 0, .constructed 1, .registered 1 0, .used 1, .registered 0 1, .used 0, .used 0, .dying 0, .touched 0, .touched 1,
    .printed [0, 1], .freed 0, .constructed 0, .touched 1, .printed [1]] :=
  ⟨_, [.construct 0, .construct 1, .acquire 0 0, .acquire 1 1, .check 0, .check 1, .lock 1, .body 1, .lock 0, .finish 1, .body 0, .finish 0, .acquire 1 0,
    .destroy 0 0, .check 0, .print 2 [0, 1], .visit 2, .visit 2, .visit 2, .lock 0, .body 0, .finish 0, .construct 0, .print 2 [1], .visit 2, .visit 2], rfl⟩

end Verif.Monitor
