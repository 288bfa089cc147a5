import Verif.EvLoop.Model
import Verif.Common.AtEvent
import Mathlib.Data.List.Count
import Mathlib.Data.List.Nodup
/-!
# Invariants of the event loop's model
-/

namespace Verif.EvLoop

/-- the task in the hands of a worker -/
def Pc.task : Pc → Option Nat
  | .run t | .adding t | .inserting t => some t
  | _ => none

/-- the worker has passed add_event's test with the task -/
def Pc.admits : Pc → Option Nat
  | .adding t | .inserting t => some t
  | _ => none

theorem Pc.task_of_admits {p : Pc} {t : Nat} (h : p.admits = some t) : p.task = some t := by
  cases p <;> simp_all [Pc.admits, Pc.task]

/-- a task is in at most one place -/
structure Loc (n : Nat) (s : St) : Prop where
  qn : s.queue.Nodup
  hn : ∀ i, (s.heap i).Nodup
  hb : ∀ i, n ≤ i → s.heap i = []
  pb : ∀ i, n ≤ i → s.pc i = .top
  qh : ∀ t i, t ∈ s.queue → t ∉ s.heap i
  qp : ∀ t i, t ∈ s.queue → (s.pc i).task ≠ some t
  hh : ∀ t i j, t ∈ s.heap i → t ∈ s.heap j → i = j
  hp : ∀ t i j, t ∈ s.heap i → (s.pc j).task ≠ some t
  pp : ∀ t i j, (s.pc i).task = some t → (s.pc j).task = some t → i = j
  fq : ∀ t, t ∈ s.queue → t < s.next
  fh : ∀ t i, t ∈ s.heap i → t < s.next
  fp : ∀ t i, (s.pc i).task = some t → t < s.next

theorem reach_loc {n : Nat} {s : St} {tr : List Ev} (h : (machine n).Reaches s tr) : Loc n s := by
  refine Machine.Reaches.inv (M := machine n) (fun s _ => Loc n s) ?_ ?_ h
  · constructor <;> simp [machine, init, Pc.task]
  · rintro s tr l s' e ⟨qn, hn, hb, pb, qh, qp, hh, hp, pp, fq, fh, fp⟩ hs
    change step n s l = some (s', e) at hs
    cases l with
    | _ =>
      simp only [step] at hs
      (repeat' split at hs) <;> simp only [Option.some.injEq, Prod.mk.injEq, reduceCtorEq] at hs
      all_goals obtain ⟨rfl, rfl⟩ := hs
      all_goals constructor <;> (try dsimp only)
      all_goals first
        | assumption
        | (simp only [upd_apply]; grind [Pc.task])
        | grind [Pc.task, List.nodup_append, List.Pairwise.filter, List.Nodup, List.Nodup.mem_erase_iff, List.Pairwise.erase]
        | skip

theorem count_expired_map {due : List Nat} (hn : due.Nodup) (t : Nat) :
    (due.map Ev.expired).count (Ev.expired t) = if t ∈ due then 1 else 0 := by
  rw [List.count_map_of_injective _ _ (fun a b h => by simpa using h)]
  exact hn.count

theorem count_dropped_map {due : List Nat} (hn : due.Nodup) (t : Nat) :
    (due.map Ev.dropped).count (Ev.dropped t) = if t ∈ due then 1 else 0 := by
  rw [List.count_map_of_injective _ _ (fun a b h => by simpa using h)]
  exact hn.count

theorem all_heaps_nodup {n : Nat} {s : St} (h : Loc n s) : ((List.range n).flatMap s.heap).Nodup := by
  rw [List.nodup_flatMap]
  refine ⟨fun i _ => h.hn i, ?_⟩
  refine List.Pairwise.imp ?_ List.nodup_range
  intro i j hij t hi hj
  exact hij (h.hh t i j hi hj)

theorem mem_all_heaps {n : Nat} {s : St} (h : Loc n s) (t : Nat) : t ∈ (List.range n).flatMap s.heap ↔ ∃ i, t ∈ s.heap i := by
  simp only [List.mem_flatMap, List.mem_range]
  constructor
  · rintro ⟨i, _, hi⟩; exact ⟨i, hi⟩
  · rintro ⟨i, hi⟩
    refine ⟨i, ?_, hi⟩
    rcases Nat.lt_or_ge i n with hn | hn
    · exact hn
    · rw [h.hb i hn] at hi; simp at hi

/-- what the flags say about the past -/
structure Flags (s : St) (tr : List Ev) : Prop where
  cl : s.cleaning = true ↔ Ev.stopping ∈ tr
  ts : s.tstop = true ↔ Ev.timerStopped ∈ tr
  st1 : s.stopStage = 0 ↔ Ev.stopping ∉ tr
  qt1 : s.quickStage = 0 ↔ Ev.quickStopping ∉ tr
  qt2 : 2 ≤ s.quickStage → s.tstop = true
  st2 : 2 ≤ s.stopStage → s.tstop = true
  t1 : s.tstop = true → 2 ≤ s.stopStage ∨ 2 ≤ s.quickStage
  sr : s.stopReq = true → s.tstop = true
  sn : s.stopNow = true → 2 ≤ s.quickStage
  ex : ∀ i, s.pc i = .exited → s.stopReq = true
  dr : ∀ t, Ev.dropped t ∈ tr → Ev.quickStopping ∈ tr
  ig : ∀ t, Ev.ignored t ∈ tr → s.tstop = true
  rf : ∀ t, Ev.refused t ∈ tr → Ev.stopping ∈ tr

theorem reach_flags {n : Nat} {s : St} {tr : List Ev} (h : (machine n).Reaches s tr) : Flags s tr := by
  refine Machine.Reaches.inv (M := machine n) (fun s tr => Flags s tr) ?_ ?_ h
  · constructor <;> simp [machine, init]
  · rintro s tr l s' e ⟨cl, ts, st1, qt1, qt2, st2, t1, sr, sn, ex, dr, ig, rf⟩ hs
    change step n s l = some (s', e) at hs
    cases l with
    | _ =>
      simp only [step] at hs
      (repeat' split at hs) <;> simp only [Option.some.injEq, Prod.mk.injEq, reduceCtorEq] at hs
      all_goals obtain ⟨rfl, rfl⟩ := hs
      all_goals constructor <;> (try dsimp only) <;> (try simp only [upd_apply]) <;>
        (try simp only [List.mem_append, List.mem_singleton, List.not_mem_nil, or_false, List.mem_map, reduceCtorEq, Ev.dropped.injEq, Ev.ignored.injEq, Ev.refused.injEq, and_false, exists_false])
      all_goals first
        | assumption
        | grind
        | skip

/-- where the tasks are, from the trace -/
structure Book (s : St) (tr : List Ev) : Prop where
  a1 : ∀ t i, (s.pc i).admits = some t → tr.count (.admitted t) = tr.count (.slept t) + tr.count (.ignored t) + 1
  a0 : ∀ t, (∀ i, (s.pc i).admits ≠ some t) → tr.count (.admitted t) = tr.count (.slept t) + tr.count (.ignored t)
  s1 : ∀ t i, t ∈ s.heap i → tr.count (.slept t) = tr.count (.expired t) + tr.count (.dropped t) + 1
  s0 : ∀ t, (∀ i, t ∉ s.heap i) → tr.count (.slept t) = tr.count (.expired t) + tr.count (.dropped t)

theorem reach_book {n : Nat} {s : St} {tr : List Ev} (h : (machine n).Reaches s tr) : Book s tr := by
  refine Machine.Reaches.inv' (M := machine n) (fun s tr => Book s tr) ?_ ?_ h
  · constructor <;> simp [machine, init, Pc.admits]
  · rintro s tr l s' e hr ⟨a1, a0, s1, s0⟩ hs
    have L := reach_loc hr
    obtain ⟨qn, hn, hb, pb, qh, qp, hh, hp, pp, fq, fh, fp⟩ := id L
    have cq := count_dropped_map (all_heaps_nodup L)
    have mq := mem_all_heaps L
    have a0' : ∀ t i, (s.pc i).task = some t → (s.pc i).admits = none → tr.count (.admitted t) = tr.count (.slept t) + tr.count (.ignored t) := by
      intro t i ht hi
      refine a0 t ?_
      intro j hj
      have := pp t i j ht (Pc.task_of_admits hj)
      subst this; rw [hi] at hj; cases hj
    have a1' : ∀ t i j, (s.pc i).admits = some t → (s.pc j).admits = some t → i = j := fun t i j hi hj => pp t i j (Pc.task_of_admits hi) (Pc.task_of_admits hj)
    change step n s l = some (s', e) at hs
    cases l with
    | expire i due =>
      simp only [step] at hs
      split at hs <;> simp only [Option.some.injEq, Prod.mk.injEq, reduceCtorEq] at hs
      rename_i hc
      obtain ⟨rfl, rfl⟩ := hs
      have ce := count_expired_map hc.2.1
      have cz : ∀ x, (∀ t, x ≠ Ev.expired t) → (due.map Ev.expired).count x = 0 := by
        intro x hx
        refine List.count_eq_zero_of_not_mem ?_
        simp only [List.mem_map, not_exists, not_and]
        intro a _ ha; exact hx a ha.symm
      have hsub := hc.2.2.1
      constructor <;> dsimp only <;> simp only [List.count_append, ce, upd_apply]
      · intro t j hj
        rw [cz _ (by simp), cz _ (by simp), cz _ (by simp)]
        have := a1 t j; grind [Pc.admits]
      · intro t hj
        rw [cz _ (by simp), cz _ (by simp), cz _ (by simp)]
        have := a0 t; grind [Pc.admits]
      · intro t j hj
        rw [cz _ (by simp), cz _ (by simp)]
        have := s1 t j; grind
      · intro t hj
        rw [cz _ (by simp), cz _ (by simp)]
        have := s0 t
        have := s1 t
        by_cases ht : t ∈ due
        · have := hsub ht; grind
        · simp only [ht, if_false]; grind
    | quickStop =>
      have cz : ∀ x, (∀ t, x ≠ Ev.dropped t) → (((List.range n).flatMap s.heap).map Ev.dropped).count x = 0 := by
        intro x hx
        refine List.count_eq_zero_of_not_mem ?_
        simp only [List.mem_map, not_exists, not_and]
        intro a _ ha; exact hx a ha.symm
      simp only [step] at hs
      (repeat' split at hs) <;> simp only [Option.some.injEq, Prod.mk.injEq, reduceCtorEq] at hs <;> obtain ⟨rfl, rfl⟩ := hs
      all_goals constructor <;> dsimp only <;> simp only [List.count_append, cq, mq, List.count_cons, List.count_nil]
      all_goals intro t
      all_goals (try rw [cz (Ev.admitted t) (by simp)])
      all_goals (try rw [cz (Ev.slept t) (by simp)])
      all_goals (try rw [cz (Ev.ignored t) (by simp)])
      all_goals (try rw [cz (Ev.expired t) (by simp)])
      all_goals have := a1 t
      all_goals have := a0 t
      all_goals have := s1 t
      all_goals have := s0 t
      all_goals grind
    | _ =>
      simp only [step] at hs
      (repeat' split at hs) <;> simp only [Option.some.injEq, Prod.mk.injEq, reduceCtorEq] at hs
      all_goals obtain ⟨rfl, rfl⟩ := hs
      all_goals constructor <;> (try dsimp only) <;> (try simp only [upd_apply, List.append_nil]) <;>
        (try simp only [List.count_append, List.count_cons, List.count_nil])
      all_goals first
        | assumption
        | (intro t; have := a1 t; have := a0 t; have := a0' t; have := a1' t; have := s1 t; have := s0 t; grind [Pc.admits, Pc.task])
        | skip

end Verif.EvLoop
