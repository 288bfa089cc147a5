import Verif.EndToEnd.Props
import Verif.Mutex.Props
/-!
# C111: does the program end?
-/

namespace Verif.EndToEnd

variable {S : Type} {f : Nat → S → S} {x0 : S} {n W : Nat}

/-! ## Every execution is bounded -/

/-- how far a task is from its end -/
def rank (p : Prog) (m : Mutex.Pc) (g : WaitGroup.Pc) (q : Bool) : Nat :=
  match p with
  | .unborn => 25
  | .begun => match m with
    | .idle => 20
    | .missed => 19
    | .queued => 18
    | .woken => 15
    | .holding => 14
    | _ => 0
  | .loaded => 13
  | .stored => 12
  | .releasing => match m with
    | .rel1 => 11
    | .rel2 => 10
    | .rel3 | .relWake _ => 9
    | _ => 8
  | .signalling => match g with
    | .waking | .waker _ => 7
    | _ => 6
  | .over => 0
  | .mBegin => 20
  | .mSpawning => 19
  | .mWaiting => match g with
    | .missed => 12
    | .queued => if q = true then 11 else 9
    | _ => 5
  | .mOver => 0

def bit (b : Bool) : Nat := if b = true then 1 else 0

def left (s : St S) (t : Nat) : Nat := rank (s.prog t) (s.mx.pc t) (s.wg.pc t) (s.wg.queue.contains t) + bit (s.ready.contains t)

set_option maxHeartbeats 1000000 in
theorem left_lock {s s' : St S} {tr : List Mutex.Ev} {e : List (Ev S)} {w : Nat} {l : Mutex.Lbl} (L : Loc n s) (R : Run W s) (M : Mutex.Inv s.mx tr)
    (hs : step f n W s (.lock w l) = some (s', e)) : (∀ t, left s' t ≤ left s t) ∧ left s' l.agent < left s l.agent := by
  obtain ⟨m0, m1, m2, m3, m4, g1, g2, g3, mn, un, sp, sb, sw⟩ := L
  obtain ⟨rn, rr, ro, oo, oa, ar, ow⟩ := R
  obtain ⟨_, _, _, _, _, a1, a2, _, _⟩ := M
  obtain ⟨mx', e', ho, hp, hm, rfl, rfl⟩ := lock_step hs
  clear hs
  have hnr : ∀ t, s.on w = some t → s.ready.contains t = false := fun t ht => by simpa using fun hc => ro t w hc ht
  simp only [Active, MayWait] at oa ar rr
  cases l <;> simp only [Mutex.step] at hm <;> (repeat' split at hm) <;> simp only [Option.some.injEq, Prod.mk.injEq, reduceCtorEq] at hm
  all_goals obtain ⟨rfl, rfl⟩ := hm
  all_goals simp only [mayLock, decide_eq_true_eq, Bool.false_eq_true, Mutex.Lbl.agent] at hp ho
  all_goals simp only [left, upd_apply, lockProg, lockWoken, Mutex.Lbl.agent, List.filterMap_cons, List.filterMap_nil, List.append_nil, if_true]
  all_goals constructor
  all_goals grind [rank, bit]

set_option maxHeartbeats 1000000 in
theorem left_group {s s' : St S} {tr : List WaitGroup.Ev} {e : List (Ev S)} {w t : Nat} {l : WaitGroup.Lbl} (L : Loc n s) (R : Run W s) (G : WaitGroup.Inv s.wg tr)
    (hs : step f n W s (.group w t l) = some (s', e)) : (∀ t, left s' t ≤ left s t) ∧ (left s' t < left s t ∨ left s' 0 < left s 0) := by
  obtain ⟨m0, m1, m2, m3, m4, g1, g2, g3, mn, un, sp, sb, sw⟩ := L
  obtain ⟨rn, rr, ro, oo, oa, ar, ow⟩ := R
  obtain ⟨_, _, a1, a3, a2, _, _⟩ := G
  obtain ⟨mx', e', ho, hp, hm, rfl, rfl⟩ := group_step hs
  clear hs
  have hnr : ∀ t, s.on w = some t → s.ready.contains t = false := fun t ht => by simpa using fun hc => ro t w hc ht
  have hz : ∀ u, s.wg.pc u = .queued → u = 0 := fun u hu => (mn u).1 (by rw [g1 u (Or.inr hu)]; rfl)
  simp only [Active, MayWait] at oa ar rr
  cases l <;> simp only [WaitGroup.step] at hm <;> (repeat' split at hm) <;> simp only [Option.some.injEq, Prod.mk.injEq, reduceCtorEq] at hm
  all_goals obtain ⟨rfl, rfl⟩ := hm
  all_goals simp only [mayGroup, decide_eq_true_eq] at hp
  all_goals simp only [left, upd_apply, groupProg, groupWoken, List.filterMap_cons, List.filterMap_nil, List.append_nil, if_true]
  all_goals constructor
  all_goals grind [rank, bit]

theorem left_step {s s' : St S} {tr e : List (Ev S)} {l : Lbl} (h : (machine f x0 n W).Reaches s tr) (hs : step f n W s l = some (s', e)) :
    (∀ t, left s' t ≤ left s t) ∧ ∃ t, t ≤ n ∧ left s' t < left s t := by
  have L := loc_inv h
  have R := run_inv h
  have small : ∀ t, s.prog t ≠ .unborn → t ≤ n := by
    intro t ht
    by_contra hc
    exact ht ((L.un t).2 ⟨by omega, by have := L.sp; omega⟩)
  have onle : ∀ w t, s.on w = some t → t ≤ n := fun w t ht => small t (R.oa t w ht).1
  cases l with
  | lock w l =>
    obtain ⟨a, b⟩ := left_lock L R (mxInv h) hs
    obtain ⟨_, _, ho, _⟩ := lock_step hs
    exact ⟨a, _, onle w _ ho, b⟩
  | group w t l =>
    obtain ⟨a, b⟩ := left_group L R (wgInv h) hs
    obtain ⟨_, _, ho, _⟩ := group_step hs
    rcases b with b | b
    · exact ⟨a, _, onle w _ ho, b⟩
    · exact ⟨a, 0, Nat.zero_le _, b⟩
  | take w t =>
    simp only [step] at hs
    split at hs <;> simp only [Option.some.injEq, Prod.mk.injEq, reduceCtorEq] at hs
    rename_i hc
    obtain ⟨rfl, rfl⟩ := hs
    have hw := R.rr t hc.2.2
    have hne : s.prog t ≠ .unborn := by rcases hw with ⟨h1, _⟩ | h1 | ⟨h1, _⟩ <;> simp [h1]
    have hn := R.rn
    refine ⟨fun u => ?_, t, small t hne, ?_⟩
    · simp only [left, bit, List.contains_iff_mem, hn.mem_erase_iff]
      grind
    · have h2 : t ∈ s.ready := hc.2.2
      simp [left, bit, hn.mem_erase_iff, h2]
  | spawn w =>
    have i1 : ∀ t, s.prog t = .unborn → s.mx.pc t = .idle := fun t ht => L.idleM (by simp [ht]) (by simp [ht]) (by simp [ht]) (by simp [ht])
    have hu : s.prog (s.spawned + 1) = .unborn := (L.un _).2 ⟨by omega, by omega⟩
    simp only [step] at hs
    split at hs <;> simp only [Option.some.injEq, Prod.mk.injEq, reduceCtorEq] at hs
    rename_i hc
    obtain ⟨rfl, rfl⟩ := hs
    have hnr : s.spawned + 1 ∉ s.ready := fun hm => by
      rcases R.rr _ hm with ⟨h1, _⟩ | h1 | ⟨h1, _⟩ <;> (rw [hu] at h1; cases h1)
    refine ⟨fun u => ?_, s.spawned + 1, by omega, ?_⟩
    · simp only [left, upd_apply, bit]
      have := i1 _ hu
      grind [rank]
    · simp [left, bit, rank, hu, i1 _ hu]; split <;> omega
  | load w t =>
    simp only [step] at hs
    split at hs <;> simp only [Option.some.injEq, Prod.mk.injEq, reduceCtorEq] at hs
    rename_i hc
    obtain ⟨rfl, rfl⟩ := hs
    refine ⟨fun u => ?_, t, onle w t hc.1, ?_⟩ <;> simp only [left, upd_apply, bit] <;> grind [rank]
  | store w t =>
    simp only [step] at hs
    split at hs <;> simp only [Option.some.injEq, Prod.mk.injEq, reduceCtorEq] at hs
    rename_i hc
    obtain ⟨rfl, rfl⟩ := hs
    refine ⟨fun u => ?_, t, onle w t hc.1, ?_⟩ <;> simp only [left, upd_apply, bit] <;> grind [rank]
  | finish w t =>
    simp only [step] at hs
    split at hs <;> simp only [Option.some.injEq, Prod.mk.injEq, reduceCtorEq] at hs
    rename_i hc
    obtain ⟨rfl, rfl⟩ := hs
    refine ⟨fun u => ?_, t, onle w t hc.1, ?_⟩ <;> simp only [left, upd_apply, bit] <;> grind [rank]
  | read w =>
    simp only [step] at hs
    split at hs <;> simp only [Option.some.injEq, Prod.mk.injEq, reduceCtorEq] at hs
    rename_i hc
    obtain ⟨rfl, rfl⟩ := hs
    refine ⟨fun u => ?_, 0, Nat.zero_le _, ?_⟩ <;> simp only [left, upd_apply, bit] <;> grind [rank]

def total (n : Nat) (s : St S) : Nat := ((List.range (n + 1)).map (left s)).sum

theorem sum_le {g k : Nat → Nat} (h : ∀ t, g t ≤ k t) : ∀ l : List Nat, (l.map g).sum ≤ (l.map k).sum := by
  intro l
  induction l with
  | nil => simp
  | cons a l ih => simp only [List.map_cons, List.sum_cons]; have := h a; omega

theorem sum_lt {g k : Nat → Nat} (h : ∀ t, g t ≤ k t) {t : Nat} (ht : g t < k t) : ∀ l : List Nat, t ∈ l → (l.map g).sum < (l.map k).sum := by
  intro l
  induction l with
  | nil => simp
  | cons a l ih =>
    intro hm
    simp only [List.map_cons, List.sum_cons]
    rcases List.mem_cons.1 hm with rfl | hm
    · have := sum_le h l; omega
    · have := ih hm; have := h a; omega

theorem total_step {s s' : St S} {tr e : List (Ev S)} {l : Lbl} (h : (machine f x0 n W).Reaches s tr) (hs : step f n W s l = some (s', e)) : total n s' < total n s := by
  obtain ⟨a, t, ht, b⟩ := left_step h hs
  exact sum_lt a b _ (by simp; omega)

theorem bounded_from (ls : List Lbl) : ∀ {s s' : St S} {tr q : List (Ev S)}, (machine f x0 n W).Reaches s tr → (machine f x0 n W).runFrom s ls = some (s', q) →
    ls.length + total n s' ≤ total n s := by
  induction ls with
  | nil =>
    intro s s' tr q _ h
    simp only [Machine.runFrom, Option.some.injEq, Prod.mk.injEq] at h
    obtain ⟨rfl, rfl⟩ := h
    simp
  | cons l ls ih =>
    intro s s' tr q h hr
    simp only [Machine.runFrom] at hr
    split at hr
    · simp at hr
    · rename_i s1 e hs
      split at hr
      · simp at hr
      · rename_i s2 es h2
        simp only [Option.some.injEq, Prod.mk.injEq] at hr
        obtain ⟨rfl, rfl⟩ := hr
        have := ih (h.step hs) h2
        have := total_step h hs
        simp only [List.length_cons]
        omega

theorem total_init (x0 : S) : total n (init x0) = 25 * n + 21 := by
  have h0 : left (init x0) 0 = 21 := by simp [left, init, rank, bit]
  have h1 : ∀ k, ((List.range' 1 k).map (left (init x0))).sum = 25 * k := by
    intro k
    have : (List.range' 1 k).map (left (init x0)) = (List.range' 1 k).map (fun _ => 25) := by
      apply List.map_congr_left
      intro t ht
      rw [List.mem_range'_1] at ht
      have : t ≠ 0 := by omega
      simp [left, init, rank, bit, upd_apply, this]
    rw [this]
    simp
    omega
  rw [total, List.range_eq_range', List.range'_succ]
  simp only [List.map_cons, List.sum_cons, h0]
  have := h1 n
  rw [Nat.zero_add]
  omega

/-- **C111.**  Every execution ends after at most `25 n + 21` steps, for every number of workers and every schedule (nobody spins). -/
theorem program_terminates (ls : List Lbl) (s : St S) (tr : List (Ev S)) (h : (machine f x0 n W).run ls = some (s, tr)) : ls.length ≤ 25 * n + 21 := by
  have := bounded_from ls (Machine.Reaches.init _) h
  have h2 := total_init (n := n) x0
  have h3 : (machine f x0 n W).init = init x0 := rfl
  rw [h3] at this
  omega

/-! ## ... and how it ends -/

theorem lock_enabled {s : St S} {w : Nat} {l : Mutex.Lbl} (h1 : s.on w = some l.agent) (h2 : mayLock (s.prog l.agent) l = true) (h3 : (Mutex.step false s.mx l).isSome) :
    (step f n W s (.lock w l)).isSome := by
  obtain ⟨⟨mx', e'⟩, hm⟩ := Option.isSome_iff_exists.1 h3
  simp [step, h1, h2, hm]

theorem group_enabled {s : St S} {w t : Nat} {l : WaitGroup.Lbl} (h1 : s.on w = some t) (h2 : mayGroup n s.spawned t (s.mx.pc t) (s.prog t) l = true)
    (h3 : (WaitGroup.step s.wg l).isSome) : (step f n W s (.group w t l)).isSome := by
  obtain ⟨⟨wg', e'⟩, hm⟩ := Option.isSome_iff_exists.1 h3
  simp [step, h1, h2, hm]

/-- A task that a worker runs can always do its next step: no worker is ever blocked. -/
theorem running_can_go {s : St S} {tr : List (Ev S)} (h : (machine f x0 n W).Reaches s tr) {w t : Nat} (ho : s.on w = some t) : ∃ l, (step f n W s l).isSome := by
  have L := loc_inv h
  obtain ⟨ha1, ha2, ha3, ha4, ha5⟩ := (run_inv h).oa t w ho
  have hm : (s.prog t).main = true → t = 0 := (L.mn t).1
  obtain ⟨m0, m1, m2, m3, m4, g1, g2, g3, mn, un, sp, sb, sw⟩ := L
  cases hp : s.prog t with
  | unborn => exact absurd hp ha1
  | over => exact absurd hp ha2
  | mOver => exact absurd hp ha3
  | begun =>
    cases hx : s.mx.pc t with
    | idle => exact ⟨.lock w (.acquire t), lock_enabled ho (by simp [mayLock, Mutex.Lbl.agent, hp]) (by simp only [Mutex.step, hx, if_true]; split <;> rfl)⟩
    | missed => exact ⟨.lock w (.suspend t), lock_enabled ho (by simp [mayLock, Mutex.Lbl.agent, hp]) (by simp [Mutex.step, hx])⟩
    | queued => exact absurd hx ha4
    | woken => exact ⟨.lock w (.resume t), lock_enabled ho (by simp [mayLock, Mutex.Lbl.agent, hp]) (by simp [Mutex.step, hx])⟩
    | holding => exact ⟨.load w t, by simp [step, ho, hp, hx]⟩
    | rel1 => have := m3 t (by simp [hx]); rw [hp] at this; cases this
    | rel2 => have := m3 t (by simp [hx]); rw [hp] at this; cases this
    | rel3 => have := m3 t (by simp [hx]); rw [hp] at this; cases this
    | relWake u => have := m4 t u hx; rw [hp] at this; cases this
  | loaded => exact ⟨.store w t, by simp [step, ho, hp]⟩
  | stored =>
    have hx := m0 t (Or.inr hp)
    exact ⟨.lock w (.unlock t), lock_enabled ho (by simp [mayLock, Mutex.Lbl.agent, hp]) (by simp [Mutex.step, hx])⟩
  | releasing =>
    cases hx : s.mx.pc t with
    | idle =>
      refine ⟨.group w t (.done t 1), group_enabled ho (by simp [mayGroup, hp, hx]) ?_⟩
      have hg : s.wg.pc t = .idle := by cases hg : s.wg.pc t <;> grind
      simp only [WaitGroup.step, hg, if_true]; split <;> rfl
    | missed => have := m1 t (by simp [hx]); rw [hp] at this; cases this
    | queued => exact absurd hx ha4
    | woken => have := m1 t (by simp [hx]); rw [hp] at this; cases this
    | holding => have := m2 t hx; rw [hp] at this; simp at this
    | rel1 => exact ⟨.lock w (.retake t), lock_enabled ho (by simp [mayLock, Mutex.Lbl.agent, hp]) (by simp only [Mutex.step, hx, if_true]; split <;> rfl)⟩
    | rel2 =>
      cases hq : s.mx.queue with
      | nil => exact ⟨.lock w (.dequeueNone t), lock_enabled ho (by simp [mayLock, Mutex.Lbl.agent, hp]) (by simp [Mutex.step, hx, hq])⟩
      | cons u q => exact ⟨.lock w (.dequeue t u), lock_enabled ho (by simp [mayLock, Mutex.Lbl.agent, hp]) (by simp [Mutex.step, hx, hq])⟩
    | rel3 => exact ⟨.lock w (.clear t), lock_enabled ho (by simp [mayLock, Mutex.Lbl.agent, hp]) (by simp [Mutex.step, hx])⟩
    | relWake u => exact ⟨.lock w (.wake t), lock_enabled ho (by simp [mayLock, Mutex.Lbl.agent, hp]) (by simp [Mutex.step, hx])⟩
  | signalling =>
    cases hx : s.wg.pc t with
    | idle => exact ⟨.finish w t, by simp [step, ho, hp, hx]⟩
    | missed => have := g1 t (Or.inl hx); rw [hp] at this; cases this
    | queued => exact absurd hx ha5
    | waking =>
      cases hq : s.wg.queue with
      | nil => exact ⟨.group w t (.drained t), group_enabled ho (by simp [mayGroup, hp]) (by simp [WaitGroup.step, hx, hq])⟩
      | cons u q => exact ⟨.group w t (.dequeue t u), group_enabled ho (by simp [mayGroup, hp]) (by simp [WaitGroup.step, hx, hq])⟩
    | waker u => exact ⟨.group w t (.wake t), group_enabled ho (by simp [mayGroup, hp]) (by simp [WaitGroup.step, hx])⟩
  | mBegin => exact ⟨.group w t (.add n), group_enabled ho (by simp [mayGroup, hp]) (by simp [WaitGroup.step])⟩
  | mSpawning =>
    have h0 := hm (by simp [hp, Prog.main])
    subst h0
    by_cases hs : s.spawned < n
    · exact ⟨.spawn w, by simp [step, ho, hp, hs]⟩
    · refine ⟨.group w 0 (.wait 0), group_enabled ho (by simp [mayGroup, hp]; omega) ?_⟩
      have hg : s.wg.pc 0 = .idle := by cases hg : s.wg.pc 0 <;> grind
      simp only [WaitGroup.step, hg, if_true]; split <;> rfl
  | mWaiting =>
    have h0 := hm (by simp [hp, Prog.main])
    subst h0
    cases hx : s.wg.pc 0 with
    | idle => exact ⟨.read w, by simp [step, ho, hp, hx]⟩
    | missed => exact ⟨.group w 0 (.suspend 0), group_enabled ho (by simp [mayGroup, hp]) (by simp [WaitGroup.step, hx])⟩
    | queued => exact absurd hx ha5
    | waking => have := g2 0 hx; rw [hp] at this; cases this
    | waker u => have := g3 0 u hx; rw [hp] at this; cases this

/-- The execution cannot go on. -/
def Ended (f : Nat → S → S) (n W : Nat) (s : St S) : Prop := ∀ l, step f n W s l = none

theorem ended_inactive (hW : 0 < W) {s : St S} {tr : List (Ev S)} (h : (machine f x0 n W).Reaches s tr) (he : Ended f n W s) (t : Nat) : ¬ Active s t := by
  have R := run_inv h
  intro ha
  have hon : ∀ w u, s.on w ≠ some u := by
    intro w u hu
    obtain ⟨l, hl⟩ := running_can_go h hu
    simp [he l] at hl
  rcases R.ar t ha with h1 | ⟨w, h1⟩
  · have h0 : s.on 0 = none := by
      cases hc : s.on 0 with
      | none => rfl
      | some u => exact absurd hc (hon 0 u)
    have := he (.take 0 t)
    simp [step, hW, h0, h1] at this
  · exact hon w t h1

end Verif.EndToEnd
