import Verif.Hb.GenModel
import Verif.Generator.Props
/-!
# C91: the two sides of a generator do not race
-/

namespace Verif.Hb.Gen
open Machine
open Generator (Act)

/-- The view contains all accesses that were not made by destructors of local variables. -/
def Known (v : View) (tr : List Ev) : Prop := ∀ w j, w ≠ .locals → .access w j ∈ tr → v j = true

structure Inv (b : Nat → Act) (s : St) (tr : List Ev) : Prop where
  gen : ∃ gtr, (Generator.machine b).Reaches s.g gtr
  num : ∀ j, j < s.n → ∃ w, .access w j ∈ tr
  cons : s.g.c ≠ .waiting → s.g.c ≠ .woken → Known s.cons tr
  woken : s.g.c = .woken → Known s.readyC tr
  body : s.g.c = .waiting → Known s.body tr
  race : ∀ i j, .race i j ∈ tr → .access .locals i ∈ tr ∨ .access .locals j ∈ tr

theorem mem_races {v : View} {n i j : Nat} : .race i j ∈ races v n ↔ i = n ∧ j < n ∧ v j = false := by
  simp only [races, List.mem_map, List.mem_filter, List.mem_range, Bool.not_eq_true', Ev.race.injEq]
  constructor
  · rintro ⟨a, ⟨h1, h2⟩, rfl, rfl⟩; exact ⟨rfl, h1, h2⟩
  · rintro ⟨rfl, h1, h2⟩; exact ⟨j, ⟨h1, h2⟩, rfl, rfl⟩

theorem access_races {v : View} {n : Nat} {w : Who} {j : Nat} : .access w j ∉ races v n := by
  simp [races]

theorem gen_races {v : View} {n : Nat} {e : Generator.Ev} : .gen e ∉ races v n := by
  simp [races]

theorem known_of_le {v v' : View} {tr : List Ev} (h : ∀ j, v j = true → v' j = true) (hk : Known v tr) : Known v' tr :=
  fun w j hw hm => h j (hk w j hw hm)

theorem known_gen {v : View} {tr e : List Ev} (he : ∀ w j, .access w j ∉ e) : Known v (tr ++ e) ↔ Known v tr := by
  constructor
  · intro h w j hw hm; exact h w j hw (by simp [hm])
  · intro h w j hw hm
    rcases List.mem_append.1 hm with hm | hm
    · exact h w j hw hm
    · exact absurd hm (he w j)

theorem known_touch {v u : View} {tr : List Ev} {n : Nat} {w : Who} (h : Known v tr) :
    Known (fun i => v i || i == n) (tr ++ .access w n :: races u n) := by
  intro w' j hw hm
  simp only [List.mem_append, List.mem_cons, Ev.access.injEq, access_races, or_false] at hm
  rcases hm with hm | ⟨-, rfl⟩
  · simp [h w' j hw hm]
  · simp

theorem known_locals {v u : View} {tr : List Ev} {n : Nat} (h : Known v tr) : Known v (tr ++ .access .locals n :: races u n) := by
  intro w' j hw hm
  simp only [List.mem_append, List.mem_cons, Ev.access.injEq, access_races, or_false] at hm
  rcases hm with hm | ⟨rfl, -⟩
  · exact h w' j hw hm
  · exact absurd rfl hw

/-- races of an access whose view contains everything but accesses of local variables -/
theorem race_touch {v : View} {tr : List Ev} {n : Nat} {w : Who} (hn : ∀ j, j < n → ∃ w, .access w j ∈ tr) (hv : w = .locals ∨ Known v tr)
    (hr : ∀ i j, .race i j ∈ tr → .access .locals i ∈ tr ∨ .access .locals j ∈ tr) :
    ∀ i j, .race i j ∈ tr ++ .access w n :: races v n →
      .access .locals i ∈ tr ++ .access w n :: races v n ∨ .access .locals j ∈ tr ++ .access w n :: races v n := by
  intro i j h
  simp only [List.mem_append, List.mem_cons, reduceCtorEq, false_or, mem_races] at h
  rcases h with h | ⟨rfl, hj, hf⟩
  · exact (hr i j h).imp (by simp +contextual) (by simp +contextual)
  · rcases hv with rfl | hv
    · left; simp
    · obtain ⟨w', hm⟩ := hn j hj
      by_cases hw : w' = .locals
      · subst hw; right; simp [hm]
      · have := hv w' j hw hm; simp [hf] at this

theorem num_touch {v : View} {tr : List Ev} {n : Nat} {w : Who} (hn : ∀ j, j < n → ∃ w, .access w j ∈ tr) :
    ∀ j, j < n + 1 → ∃ w', .access w' j ∈ tr ++ .access w n :: races v n := by
  intro j hj
  by_cases h : j = n
  · subst h; exact ⟨w, by simp⟩
  · obtain ⟨w', hm⟩ := hn j (by omega)
    exact ⟨w', by simp [hm]⟩

theorem num_gen {tr e : List Ev} {n : Nat} (hn : ∀ j, j < n → ∃ w, .access w j ∈ tr) : ∀ j, j < n → ∃ w, .access w j ∈ tr ++ e := by
  intro j hj
  obtain ⟨w, hm⟩ := hn j hj
  exact ⟨w, by simp [hm]⟩

theorem race_gen {tr e : List Ev} (he : ∀ i j, .race i j ∉ e) (hr : ∀ i j, .race i j ∈ tr → .access .locals i ∈ tr ∨ .access .locals j ∈ tr) :
    ∀ i j, .race i j ∈ tr ++ e → .access .locals i ∈ tr ++ e ∨ .access .locals j ∈ tr ++ e := by
  intro i j h
  rcases List.mem_append.1 h with h | h
  · exact (hr i j h).imp (by simp +contextual) (by simp +contextual)
  · exact absurd h (he i j)

theorem evs_access {l : Generator.Lbl} {e : List Generator.Ev} : (∀ w j, .access w j ∉ evs l e) ∧ ∀ i j, .race i j ∉ evs l e := by
  cases l <;> simp [evs]

theorem le_locked {k : Sync} {s : St} {v : View} (j : Nat) (h : v j = true) : locked k s v j = true := by
  simp only [locked]; split <;> simp [View.join, h]

/-- a silent or lock action of the generator, without an access -/
theorem gen_step {b : Nat → Act} {s s' : St} {tr e : List Ev} (h : Inv b s tr) (hg : ∃ gtr, (Generator.machine b).Reaches s'.g gtr)
    (he : (∀ w j, .access w j ∉ e) ∧ ∀ i j, .race i j ∉ e) (hn : s'.n = s.n)
    (hc : s'.g.c ≠ .waiting → s'.g.c ≠ .woken → Known s'.cons tr)
    (hw : s'.g.c = .woken → Known s'.readyC tr) (hb : s'.g.c = .waiting → Known s'.body tr) : Inv b s' (tr ++ e) := by
  refine ⟨hg, ?_, ?_, ?_, ?_, race_gen he.2 h.race⟩
  · rw [hn]; exact num_gen h.num
  · intro h1 h2; rw [known_gen he.1]; exact hc h1 h2
  · intro h1; rw [known_gen he.1]; exact hw h1
  · intro h1; rw [known_gen he.1]; exact hb h1

theorem inv_step {b : Nat → Act} {k : Sync} (hk : k.queue = true) {s s' : St} {tr e : List Ev} {l : Lbl} (h : Inv b s tr)
    (hs : step b k s l = some (s', e)) : Inv b s' (tr ++ e) := by
  obtain ⟨gtr, hgr⟩ := h.gen
  have gi := Generator.inv_of_reaches hgr
  cases l with
  | gen l =>
    simp only [step] at hs
    split at hs
    · simp at hs
    rename_i g' e' hg
    have hg' : ∃ gtr, (Generator.machine b).Reaches g' gtr := ⟨_, hgr.step hg⟩
    have hq : ∀ v j, v j = true → queued k v j = true := by intro v j hv; simp [queued, hk, hv]
    cases l <;> simp only [Generator.step] at hg
    case resume =>
      simp only [usesSlot] at hs
      have hc : s.g.c = .ready ∨ s.g.c = .woken := by
        by_contra hc; simp [hc] at hg
      have hkn : Known (mem k s .resume).cons tr := by
        simp only [mem]
        rcases hc with hc | hc
        · simp only [hc, reduceCtorEq, if_false]; exact h.cons (by simp [hc]) (by simp [hc])
        · simp only [hc, if_true]; exact h.woken hc
      rw [if_pos hc] at hg
      split at hs
      · rename_i hf
        have hf : s.g.fin = true := by
          by_contra hn; simp [hn] at hf
        simp only [hf, if_true, Option.some.injEq, Prod.mk.injEq] at hg hs
        obtain ⟨rfl, rfl⟩ := hg
        obtain ⟨rfl, rfl⟩ := hs
        exact gen_step h hg' evs_access rfl (fun _ _ => hkn) (by simp) (by simp)
      · simp only [Option.some.injEq, Prod.mk.injEq] at hs
        obtain ⟨rfl, rfl⟩ := hs
        have hgc : g'.c = .idle := by
          (repeat' split at hg) <;> simp only [Option.some.injEq, Prod.mk.injEq] at hg <;> obtain ⟨rfl, rfl⟩ := hg <;> rfl
        rw [← List.append_assoc]
        refine gen_step (s := { (consumerTouch (mem k s .resume)).1 with g := g' }) ⟨hg', ?_, ?_, by simp [hgc], by simp [hgc], ?_⟩ hg' evs_access rfl
          (fun _ _ => ?_) (by simp [hgc]) (by simp [hgc])
        · exact num_touch h.num
        · intro _ _; exact known_touch hkn
        · exact race_touch h.num (.inr hkn) h.race
        · exact known_touch hkn
      · rename_i hf hw
        split at hw <;> simp at hw
        subst hw
        exact absurd rfl hf
    case act =>
      have hr : s.g.g = .running := by
        by_contra hn; simp [hn] at hg
      have hcw : s.g.c = .waiting := gi.wait.2 (by simp [hr])
      rw [if_pos hr] at hg
      have hgc : g'.c = .waiting := by
        split at hg <;> simp only [Option.some.injEq, Prod.mk.injEq] at hg <;> obtain ⟨rfl, rfl⟩ := hg <;> exact hcw
      have hkn := h.body hcw
      split at hs
      · simp only [Option.some.injEq, Prod.mk.injEq] at hs
        obtain ⟨rfl, rfl⟩ := hs
        exact gen_step h hg' evs_access rfl (by simp [hgc]) (by simp [hgc]) (fun _ => hkn)
      · rename_i hf
        simp only [usesSlot] at hf
        (repeat' split at hf) <;> simp at hf
      · simp only [Option.some.injEq, Prod.mk.injEq] at hs
        obtain ⟨rfl, rfl⟩ := hs
        rw [← List.append_assoc]
        refine gen_step (s := { (bodyTouch _ (mem k s .act)).1 with g := g' }) ⟨hg', ?_, by simp [hgc], by simp [hgc], ?_, ?_⟩ hg' evs_access rfl
          (by simp [hgc]) (by simp [hgc]) (fun _ => ?_)
        · exact num_touch h.num
        · intro _; exact known_touch hkn
        · exact race_touch h.num (.inr hkn) h.race
        · exact known_touch hkn
    all_goals
      simp only [usesSlot, Option.some.injEq, Prod.mk.injEq] at hs
      obtain ⟨rfl, rfl⟩ := hs
    case ask =>
      split at hg <;> simp only [Option.some.injEq, Prod.mk.injEq, reduceCtorEq] at hg
      obtain ⟨rfl, rfl⟩ := hg
      rename_i hc
      have hkn := h.cons (by simp [hc]) (by simp [hc])
      refine gen_step h hg' evs_access rfl (fun _ _ => hkn) ?_ ?_ <;> (intro hx; dsimp only at hx; split at hx <;> simp at hx)
    case setWaiting =>
      split at hg <;> simp only [Option.some.injEq, Prod.mk.injEq, reduceCtorEq] at hg
      obtain ⟨rfl, rfl⟩ := hg
      rename_i hc
      have hkn := h.cons (by simp [hc]) (by simp [hc])
      exact gen_step h hg' evs_access rfl (fun _ _ => known_of_le (fun j hj => le_locked j hj) hkn) (by simp) (by simp)
    case wakeGen =>
      (repeat' split at hg) <;> simp only [Option.some.injEq, Prod.mk.injEq, reduceCtorEq] at hg <;> obtain ⟨rfl, rfl⟩ := hg <;> rename_i hc hp
      · have hkn := h.cons (by simp [hc]) (by simp [hc])
        exact gen_step h hg' evs_access rfl (by simp) (by simp) (fun _ => known_of_le (fun j hj => hq _ j (le_locked j hj)) hkn)
      · exact absurd (gi.susp (.inr hc)) hp
    case drop =>
      (repeat' split at hg) <;> simp only [Option.some.injEq, Prod.mk.injEq, reduceCtorEq] at hg <;> obtain ⟨rfl, rfl⟩ := hg <;> rename_i hc hp <;>
      · have hkn := h.cons (by simp [hc]) (by simp [hc])
        exact gen_step h hg' evs_access rfl (fun _ _ => known_of_le (fun j hj => le_locked j hj) hkn) (by simp) (by simp)
    case unpause =>
      split at hg <;> simp only [Option.some.injEq, Prod.mk.injEq, reduceCtorEq] at hg
      obtain ⟨rfl, rfl⟩ := hg
      exact gen_step h hg' evs_access rfl h.cons h.woken h.body
    case park =>
      (repeat' split at hg) <;> simp only [Option.some.injEq, Prod.mk.injEq, reduceCtorEq] at hg <;> obtain ⟨rfl, rfl⟩ := hg <;>
        exact gen_step h hg' evs_access rfl h.cons h.woken (fun hc => known_of_le (fun j hj => le_locked j hj) (h.body hc))
    case wakeCons =>
      (repeat' split at hg) <;> simp only [Option.some.injEq, Prod.mk.injEq, reduceCtorEq] at hg <;> obtain ⟨rfl, rfl⟩ := hg <;> rename_i hc hp
      · have hkn := h.body hp.2
        exact gen_step h hg' evs_access rfl (by simp) (fun _ => known_of_le (fun j hj => hq _ j (le_locked j hj)) hkn) (by simp)
      · have : s.g.c = .waiting := gi.wait.2 (by simp [hc])
        exact absurd ⟨gi.wtg.2 (.inr this), this⟩ hp
    case retWake =>
      (repeat' split at hg) <;> simp only [Option.some.injEq, Prod.mk.injEq, reduceCtorEq] at hg <;> obtain ⟨rfl, rfl⟩ := hg <;> rename_i hc hp
      · have hkn := h.body hp.2
        exact gen_step h hg' evs_access rfl (by simp) (fun _ => known_of_le (fun j hj => hq _ j (le_locked j hj)) hkn) (by simp)
      · have : s.g.c = .waiting := gi.wait.2 (by simp [hc])
        exact absurd ⟨gi.wtg.2 (.inr this), this⟩ hp
  | consumerAccess =>
    simp only [step] at hs
    split at hs <;> simp only [Option.some.injEq, Prod.mk.injEq, reduceCtorEq, consumerTouch] at hs
    obtain ⟨rfl, rfl⟩ := hs
    rename_i hc
    have hkn : Known s.cons tr := h.cons (by rcases hc with hc | hc <;> simp [hc]) (by rcases hc with hc | hc <;> simp [hc])
    refine ⟨h.gen, num_touch h.num, fun _ _ => known_touch hkn, ?_, ?_, race_touch h.num (.inr hkn) h.race⟩ <;>
      (intro hx; dsimp only at hx; simp [hx] at hc)
  | bodyAccess =>
    simp only [step] at hs
    split at hs <;> simp only [Option.some.injEq, Prod.mk.injEq, reduceCtorEq, bodyTouch] at hs
    obtain ⟨rfl, rfl⟩ := hs
    rename_i hr
    have hcw : s.g.c = .waiting := gi.wait.2 (by simp [hr])
    have hkn := h.body hcw
    exact ⟨h.gen, num_touch h.num, by simp [hcw], by simp [hcw], fun _ => known_touch hkn, race_touch h.num (.inr hkn) h.race⟩
  | localsAccess =>
    simp only [step] at hs
    split at hs <;> simp only [Option.some.injEq, Prod.mk.injEq, reduceCtorEq, bodyTouch] at hs
    obtain ⟨rfl, rfl⟩ := hs
    refine ⟨h.gen, num_touch h.num, fun h1 h2 => known_locals (h.cons h1 h2), fun h1 => known_locals (h.woken h1),
      fun h1 => ?_, race_touch h.num (.inl rfl) h.race⟩
    exact known_of_le (fun j hj => by simp [hj]) (known_locals (h.body h1))
  | unwound =>
    simp only [step] at hs
    split at hs <;> simp only [Option.some.injEq, Prod.mk.injEq, reduceCtorEq] at hs
    obtain ⟨rfl, rfl⟩ := hs
    exact gen_step h h.gen (by simp) rfl h.cons h.woken h.body

theorem inv_of_reaches {b : Nat → Act} {k : Sync} (hk : k.queue = true) {s : St} {tr : List Ev} (h : (machine b k).Reaches s tr) : Inv b s tr :=
  Reaches.inv (M := machine b k) (Inv b) ⟨⟨_, Reaches.init _⟩, by simp [machine, init], by simp [Known], by simp [Known], by simp [Known], by simp⟩
    (fun _ _ _ _ _ hI hs => inv_step hk hI hs) h

/-- **C91.**  For every body, endless ones included, and every schedule: whenever two accesses to data that the consumer and the body share are not ordered
by happens-before, one of them was made by the destructor of a local variable of the body, after the body had come to its end. -/
theorem generator_races_only_with_locals {b : Nat → Act} {s : St} {tr : List Ev} (h : (machine b code).Reaches s tr) (i j : Nat)
    (hr : .race i j ∈ tr) : .access .locals i ∈ tr ∨ .access .locals j ∈ tr :=
  (inv_of_reaches rfl h).race i j hr

/-- The scheduler's queue alone gives this; the locks are not needed for it. -/
theorem race_free_of_queue {b : Nat → Act} {k : Sync} (hk : k.queue = true) {s : St} {tr : List Ev} (h : (machine b k).Reaches s tr)
    (hl : LocalsPrivate tr) : RaceFree tr :=
  fun i j hr => ((inv_of_reaches hk h).race i j hr).elim (hl i) (hl j)

/-- **C91.**  If the destructors of the body's local variables keep away from the data shared with the consumer there is no data race, also not on the
place where the yielded value is kept, which no lock protects. -/
theorem generator_race_free_partial {b : Nat → Act} {s : St} {tr : List Ev} (h : (machine b code).Reaches s tr) (hl : LocalsPrivate tr) : RaceFree tr :=
  race_free_of_queue rfl h hl

/-- A body that yields one value and ends. -/
def one : Nat → Act := fun i => if i = 0 then .yield 5 else .ret

/-- Both sides use the data, several times, and the body has local variables that are destroyed. -/
theorem generator_race_free_nontrivial : ∃ s, (machine one code).Reaches s [.access .consumer 0, .gen .asked, .access .body 1, .access .body 2, .gen (.ran (.yield 5)),
    .access .consumer 3, .gen (.got (some 5)), .access .consumer 4, .gen .asked, .access .body 5, .gen (.ran .ret), .gen (.got none), .access .consumer 6,
    .gen .frameDestroyed] :=
  ⟨_, [.consumerAccess, .gen .ask, .gen .setWaiting, .gen .wakeGen, .bodyAccess, .gen .act, .gen .park, .gen .wakeCons, .gen .resume, .consumerAccess, .gen .ask,
    .gen .setWaiting, .gen .wakeGen, .bodyAccess, .gen .act, .gen .retWake, .gen .resume, .consumerAccess, .unwound], rfl⟩

/-- **C91, refuted.**  The consumer is told that there are no more values while the local variables of the body are still there; what their destructors do races with
what the consumer does next. -/
theorem generator_race_refuted : ∃ s tr, (machine one code).Reaches s tr ∧ ¬ RaceFree tr ∧ ¬ OverAtEnd tr := by
  refine ⟨_, [.gen .asked, .access .body 0, .gen (.ran (.yield 5)), .access .consumer 1, .gen (.got (some 5)), .gen .asked, .gen (.ran .ret), .gen (.got none),
      .access .consumer 2, .access .locals 3, .race 3 2, .gen .frameDestroyed],
    ⟨[.gen .ask, .gen .setWaiting, .gen .wakeGen, .gen .act, .gen .park, .gen .wakeCons, .gen .resume, .gen .ask,
    .gen .setWaiting, .gen .wakeGen, .gen .act, .gen .retWake, .gen .resume, .consumerAccess, .localsAccess, .unwound], rfl⟩, ?_, ?_⟩
  · intro h; exact h 3 2 (by decide)
  · intro h
    have := h [.gen .asked, .access .body 0, .gen (.ran (.yield 5)), .access .consumer 1, .gen (.got (some 5)), .gen .asked, .gen (.ran .ret)]
      ⟨[.access .consumer 2, .access .locals 3, .race 3 2, .gen .frameDestroyed], by decide⟩
    simp at this

/-- Without the queue's synchronisation the locks do not help: the yielded value itself is subject to a race. -/
theorem unsynchronised_queue_races : ∃ s tr, (machine one { code with queue := false }).Reaches s tr ∧ LocalsPrivate tr ∧ ¬ RaceFree tr := by
  refine ⟨_, [.gen .asked, .access .body 0, .gen (.ran (.yield 5)), .access .consumer 1, .race 1 0, .gen (.got (some 5))],
    ⟨[.gen .ask, .gen .setWaiting, .gen .wakeGen, .gen .act, .gen .park, .gen .wakeCons, .gen .resume], rfl⟩, by simp [LocalsPrivate], ?_⟩
  intro h; exact h 1 0 (by decide)

end Verif.Hb.Gen
