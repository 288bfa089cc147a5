import Verif.EndToEnd.Inv
import Mathlib.Data.List.Range
import Mathlib.Data.List.Perm.Subperm
/-!
# Who has stored, who has called done()
-/

namespace Verif.EndToEnd

variable {S : Type} {f : Nat → S → S} {x0 : S} {n W : Nat}

structure Wr (f : Nat → S → S) (x0 : S) (s : St S) (tr : List (Ev S)) : Prop where
  wx : s.x = oneByOne f x0 (writers tr)
  wm : ∀ t, t ∈ writers tr ↔ s.prog t = .stored ∨ s.prog t = .releasing ∨ s.prog t = .signalling ∨ s.prog t = .over
  wn : (writers tr).Nodup
  ld : ∀ t, s.prog t = .loaded → s.loc t = s.x

theorem writers_append (a b : List (Ev S)) : writers (a ++ b) = writers a ++ writers b := by simp [writers]
theorem writers_lock (e : List Mutex.Ev) : writers (e.map (Ev.lock (S := S))) = [] := by
  induction e <;> simp_all [writers, writer]
theorem writers_group (e : List WaitGroup.Ev) : writers (e.map (Ev.group (S := S))) = [] := by
  induction e <;> simp_all [writers, writer]
theorem doners_append (a b : List (Ev S)) : doners (a ++ b) = doners a ++ doners b := by simp [doners]
theorem doners_lock (e : List Mutex.Ev) : doners (e.map (Ev.lock (S := S))) = [] := by
  induction e <;> simp_all [doners, doner]

theorem lockProg_cases {p : Prog} {l : Mutex.Lbl} (h : mayLock p l = true) : lockProg p l = p ∨ (p = .stored ∧ lockProg p l = .releasing) := by
  cases l <;> simp_all [lockProg, mayLock]

theorem groupProg_cases {n k t : Nat} {m : Mutex.Pc} {p : Prog} {l : WaitGroup.Lbl} (h : mayGroup n k t m p l = true) :
    groupProg p l = p ∨ (p = .releasing ∧ groupProg p l = .signalling) ∨
      ((p = .mBegin ∨ p = .mSpawning) ∧ (groupProg p l = .mSpawning ∨ groupProg p l = .mWaiting)) := by
  cases l <;> simp_all [groupProg, mayGroup]

/-- at most one task is between its load and its unlock -/
theorem one_holder {s : St S} {tr : List Mutex.Ev} (M : Mutex.Inv s.mx tr) {t u : Nat} (ht : s.mx.pc t = .holding) (hu : s.mx.pc u = .holding) : t = u :=
  M.uniq t u (by simp [ht, Mutex.Pc.owns]) (by simp [hu, Mutex.Pc.owns])

set_option maxHeartbeats 1000000 in
theorem wr_inv {s : St S} {tr : List (Ev S)} (h : (machine f x0 n W).Reaches s tr) : Wr f x0 s tr := by
  refine Machine.Reaches.inv' (I := fun (s : St S) tr => Wr f x0 s tr) ?_ ?_ h
  · constructor <;> simp [machine, init, upd_apply, writers, oneByOne]
    all_goals grind
  · rintro s tr l s' e hr ⟨wx, wm, wn, ld⟩ hs
    change step f n W s l = some (s', e) at hs
    have L := loc_inv hr
    have M := mxInv hr
    have H : ∀ t u, s.mx.pc t = .holding → s.mx.pc u = .holding → t = u := fun t u => one_holder M
    obtain ⟨m0, m1, m2, m3, m4, g1, g2, g3, mn, un, sp, sb, sw⟩ := L
    cases l with
    | lock w l =>
      obtain ⟨mx', e', ho, hp, hm, rfl, rfl⟩ := lock_step hs
      have hp' := lockProg_cases hp
      constructor <;> simp only [writers_append, writers_lock, List.append_nil, upd_apply] <;> grind
    | group w t l =>
      obtain ⟨wg', e', ho, hp, hm, rfl, rfl⟩ := group_step hs
      have hp' := groupProg_cases hp
      constructor <;> simp only [writers_append, writers_group, List.append_nil, upd_apply] <;> grind
    | store w t =>
      simp only [step] at hs
      split at hs <;> simp only [Option.some.injEq, Prod.mk.injEq, reduceCtorEq] at hs
      obtain ⟨rfl, rfl⟩ := hs
      have hw : writers (tr ++ [Ev.wrote t]) = writers tr ++ [t] := by simp [writers, writer]
      constructor <;> (try rw [hw]) <;> (try simp only [upd_apply])
      · simp only [oneByOne, List.foldl_append, List.foldl_cons, List.foldl_nil]
        rw [ld t (by grind), wx]; rfl
      · grind
      · rw [List.nodup_append]; grind
      · grind
    | _ =>
      simp only [step] at hs
      (repeat' split at hs) <;> simp only [Option.some.injEq, Prod.mk.injEq, reduceCtorEq] at hs
      all_goals obtain ⟨rfl, rfl⟩ := hs
      all_goals constructor <;> (try simp only [writers_append, upd_apply, List.append_nil])
      all_goals first
        | assumption
        | (simp only [writers, List.filterMap_cons, List.filterMap_nil, writer, List.append_nil] at *; grind)

structure Gr (n : Nat) (s : St S) (tr : List (Ev S)) : Prop where
  dm : ∀ t, t ∈ doners tr ↔ s.prog t = .signalling ∨ s.prog t = .over
  dn : (doners tr).Nodup
  d0 : s.prog 0 = .mBegin → s.wg.cnt = 0
  dc : s.prog 0 ≠ .mBegin → s.wg.cnt + (doners tr).length = n
  z0 : s.prog 0 = .mWaiting → s.wg.pc 0 = .idle → s.wg.cnt = 0
  z1 : s.prog 0 = .mOver → s.wg.cnt = 0
  z2 : ∀ t, s.wg.pc t = .waking → s.wg.cnt = 0
  z3 : ∀ t u, s.wg.pc t = .waker u → s.wg.cnt = 0

theorem length_le_of_range {l : List Nat} (hn : l.Nodup) (hr : ∀ t ∈ l, t ≠ 0 ∧ t ≤ n) : l.length ≤ n := by
  have h : l ⊆ List.range' 1 n := fun t ht => by
    have := hr t ht
    rw [List.mem_range'_1]; omega
  simpa using (hn.subperm h).length_le

set_option maxHeartbeats 1000000 in
theorem gr_inv (hn : n < 2 ^ 64) {s : St S} {tr : List (Ev S)} (h : (machine f x0 n W).Reaches s tr) : Gr n s tr := by
  refine Machine.Reaches.inv' (I := fun (s : St S) tr => Gr n s tr) ?_ ?_ h
  · constructor <;> simp [machine, init, upd_apply, doners, WaitGroup.init]
    all_goals grind
  · rintro s tr l s' e hr G hs
    change step f n W s l = some (s', e) at hs
    have L := loc_inv hr
    have Gi := wgInv hr
    have hlen : ∀ t, s.prog t = .releasing → (doners tr).length < n := by
      intro t ht
      have hnd : (t :: doners tr).Nodup := List.nodup_cons.2 ⟨by rw [G.dm]; simp [ht], G.dn⟩
      have := length_le_of_range (n := n) hnd (fun u hu => by
        have hu' : s.prog u ≠ .unborn ∧ (s.prog u).main = false := by
          rcases List.mem_cons.1 hu with rfl | hu
          · simp [ht, Prog.main]
          · rcases (G.dm u).1 hu with h1 | h1 <;> simp [h1, Prog.main]
        have a := L.un u
        have b := L.mn u
        have c := L.sp
        have hu0 : u ≠ 0 := fun h0 => by have := b.2 h0; rw [hu'.2] at this; cases this
        refine ⟨hu0, ?_⟩
        by_contra hgt
        exact hu'.1 (a.2 ⟨hu0, by omega⟩))
      simp at this; omega
    have hnb : ∀ t, s.prog t ≠ .unborn → t ≠ 0 → s.prog 0 ≠ .mBegin := by
      intro t h1 h2 h3
      have := L.sb h3
      exact h1 ((L.un t).2 ⟨h2, by omega⟩)
    have mz : ∀ t, s.prog t = .mBegin ∨ s.prog t = .mSpawning ∨ s.prog t = .mWaiting → t = 0 := fun t ht => (L.mn t).1 (by rcases ht with h | h | h <;> simp [h, Prog.main])
    have iG := fun t => L.idleG (t := t)
    have hd0 : s.prog 0 = .mBegin → doners tr = [] := by
      intro h0
      rw [List.eq_nil_iff_forall_not_mem]
      intro t ht
      rcases (G.dm t).1 ht with h1 | h1
      · exact hnb t (by simp [h1]) (fun h2 => by subst h2; rw [h0] at h1; cases h1) h0
      · exact hnb t (by simp [h1]) (fun h2 => by subst h2; rw [h0] at h1; cases h1) h0
    obtain ⟨dm, dn, d0, dc, z0, z1, z2, z3⟩ := G
    obtain ⟨m0, m1, m2, m3, m4, g1, g2, g3, mn, un, sp, sb, sw⟩ := L
    cases l with
    | lock w l =>
      obtain ⟨mx', e', ho, hp, hm, rfl, rfl⟩ := lock_step hs
      have hp' := lockProg_cases hp
      constructor <;> simp only [doners_append, doners_lock, List.append_nil, upd_apply] <;> (clear hn; grind)
    | group w t l =>
      obtain ⟨wg', e', ho, hp, hm, rfl, rfl⟩ := group_step hs
      obtain ⟨_, _, a1, _, a2, _, _⟩ := Gi
      have hle : ∀ t, s.prog t = .releasing → 1 ≤ s.wg.cnt ∧ s.wg.cnt ≤ n ∧ s.prog 0 ≠ .mBegin := by
        intro t ht
        have a := hlen t ht
        have b : s.prog 0 ≠ .mBegin := hnb t (by simp [ht]) (fun h0 => by subst h0; have := (mn 0).2 rfl; rw [ht] at this; cases this)
        have := dc b
        exact ⟨by omega, by omega, b⟩
      clear hs hr h
      cases l with
      | add k =>
        simp only [WaitGroup.step, Option.some.injEq, Prod.mk.injEq] at hm
        obtain ⟨rfl, rfl⟩ := hm
        simp only [mayGroup, decide_eq_true_eq] at hp
        obtain ⟨hp, rfl⟩ := hp
        have h0 := mz t (Or.inl hp)
        subst h0
        have hD : doners (tr ++ List.map Ev.group [WaitGroup.Ev.added k]) = doners tr := by simp [doners, doner]
        have hc : (s.wg.cnt + k) % WaitGroup.W = k := by rw [d0 hp, Nat.zero_add]; exact Nat.mod_eq_of_lt hn
        have hd := hd0 hp
        constructor <;> simp only [hD, hc, upd_apply, groupProg] <;> grind
      | done u k =>
        simp only [mayGroup, decide_eq_true_eq] at hp
        obtain ⟨hp, hi, rfl, rfl⟩ := hp
        obtain ⟨h1, h2, h3⟩ := hle u hp
        have hc : (s.wg.cnt + (WaitGroup.W - 1 % WaitGroup.W)) % WaitGroup.W = s.wg.cnt - 1 := by
          have : WaitGroup.W = 2 ^ 64 := rfl
          rw [this]; omega
        have hu0 : u ≠ 0 := fun h0 => by subst h0; have := (mn 0).2 rfl; rw [hp] at this; cases this
        have hud : u ∉ doners tr := by rw [dm]; simp [hp]
        have hnd : (doners tr ++ [u]).Nodup := by
          rw [List.nodup_append]; exact ⟨dn, by simp, by intro a ha b hb; simp at hb; subst hb; intro h; subst h; exact hud ha⟩
        have hdc := dc h3
        have hw0 : ∀ t, s.wg.pc t ≠ .waking := fun t ht => by have := z2 t ht; omega
        have hw1 : ∀ t v, s.wg.pc t ≠ .waker v := fun t v ht => by have := z3 t v ht; omega
        simp only [WaitGroup.step, hc] at hm
        (repeat' split at hm) <;> simp only [Option.some.injEq, Prod.mk.injEq, reduceCtorEq] at hm
        · obtain ⟨rfl, rfl⟩ := hm
          have hD : doners (tr ++ List.map Ev.group [WaitGroup.Ev.doneCalled u 1]) = doners tr ++ [u] := by simp [doners, doner]
          constructor <;> simp only [hD, upd_apply, groupProg, List.length_append, List.length_cons, List.length_nil] <;> (clear hn; grind)
        · obtain ⟨rfl, rfl⟩ := hm
          have hD : doners (tr ++ List.map Ev.group [WaitGroup.Ev.doneCalled u 1, WaitGroup.Ev.doneReturned u]) = doners tr ++ [u] := by simp [doners, doner]
          constructor <;> simp only [hD, upd_apply, groupProg, List.length_append, List.length_cons, List.length_nil] <;> (clear hn; grind)
      | _ =>
        simp only [WaitGroup.step] at hm
        (repeat' split at hm) <;> simp only [Option.some.injEq, Prod.mk.injEq, reduceCtorEq] at hm
        all_goals obtain ⟨rfl, rfl⟩ := hm
        all_goals simp only [mayGroup, decide_eq_true_eq] at hp
        all_goals clear hn
        all_goals constructor <;> simp only [doners_append, upd_apply, groupProg, List.map_cons, List.map_nil]
        all_goals first
          | assumption
          | (try simp only [show ∀ t : Nat, doners [Ev.group (S := S) (.woken t)] = [] from fun _ => rfl, show ∀ t : Nat, doners [Ev.group (S := S) (.doneReturned t)] = [] from fun _ => rfl,
              show ∀ t : Nat, doners [Ev.group (S := S) (.asked t)] = [] from fun _ => rfl, show ∀ t : Nat, doners [Ev.group (S := S) (.slept t)] = [] from fun _ => rfl,
              show ∀ t : Nat, doners [Ev.group (S := S) (.asked t), Ev.group (S := S) (.passed t)] = [] from fun _ => rfl, show doners ([] : List (Ev S)) = [] from rfl, List.append_nil]
             grind)
    | _ =>
      clear hn
      simp only [step] at hs
      (repeat' split at hs) <;> simp only [Option.some.injEq, Prod.mk.injEq, reduceCtorEq] at hs
      all_goals obtain ⟨rfl, rfl⟩ := hs
      all_goals constructor <;> (try simp only [doners_append, upd_apply, List.append_nil])
      all_goals first
        | assumption
        | (simp only [doners, List.filterMap_cons, List.filterMap_nil, doner, List.append_nil] at *; grind)

end Verif.EndToEnd
