import Verif.Leak.Inv
import Verif.Common.AtEvent
/-!
# C84: tasks that are destroyed before they have finished
-/

namespace Verif.Leak
open Machine

/-! ## What is destroyed is destroyed completely, and once -/

/-- No frame is destroyed twice, and no local variable more often than it was constructed. -/
theorem at_most_once {s : St} {tr : List Ev} (h : machine.Reaches s tr) (c x : Nat) :
    tr.count (.frameGone c) ≤ 1 ∧ tr.count (.destroyed c x) ≤ tr.count (.made c x) := by
  have hk := (all_reach h).hist
  refine ⟨by rw [hk.gone]; split <;> omega, by rw [hk.lo]; omega⟩

/-- When the frame of a task is destroyed, whether the task has finished or not, all its local variables have been destroyed. -/
theorem gone_locals {s : St} {tr : List Ev} (h : machine.Reaches s tr) {c : Nat} (hc : .frameGone c ∈ tr) : LocalsGone c tr := by
  obtain ⟨hi, -, hk⟩ := all_reach h
  have hg : s.st c = .gone := by
    have h1 := hk.gone c
    have h2 := List.count_pos_iff.2 hc
    by_cases hh : s.st c = .gone
    · exact hh
    · simp only [hh, if_false] at h1; omega
  intro x
  have h1 := hk.lo c x
  rw [hi.lc c (by simp [hg])] at h1
  have h2 : s.pending.count (.loc c (.plain x)) = 0 := by
    by_cases hz : 0 < s.pending.count (.loc c (.plain x))
    · have := hi.pl c _ hz
      simp [hg] at this
    · omega
  simp only [List.count_nil] at h1
  omega

/-- When nothing is being destroyed: a task that was never started is gone if the task that called it is gone. -/
theorem unstarted_gone {s : St} {tr : List Ev} (h : machine.Reaches s tr) (hq : s.pending = []) {p c : Nat}
    (hc : .created (some p) c ∈ tr) (hn : .started c ∉ tr) (hp : .frameGone p ∈ tr) : .frameGone c ∈ tr := by
  obtain ⟨hi, hh, hk⟩ := all_reach h
  have hcr := hk.cr p c hc
  have hpg : s.st p = .gone := by
    have h1 := hk.gone p
    have h2 := List.count_pos_iff.2 hp
    by_cases hx : s.st p = .gone
    · exact hx
    · simp only [hx, if_false] at h1; omega
  have hcf := hi.cf c
  have hcp := hi.cp c
  rw [hq] at hcf hcp
  simp only [List.count_nil] at hcf hcp
  have hst := hk.st c hcr.1 hn
  have hho := hh.ho c p
  rw [hq, hi.lc p (by simp [hpg])] at hho
  simp only [List.count_nil] at hho
  have hfr := hh.fr c
  have hg : s.st c = .gone := by grind
  have := hk.gone c
  simp only [hg, if_true] at this
  exact List.count_pos_iff.1 (by omega)

/-! ## Destruction comes to an end -/

def total (n : Nat) (w : Nat → Nat) : Nat := ((List.range n).map w).sum

theorem total_le {n k g : Nat} {w w' : Nat → Nat} (hg : g < n) (h1 : ∀ f, w' f ≤ w f) (h2 : w' g + k ≤ w g) :
    total n w' + k ≤ total n w := by
  have mono : ∀ m, total m w' ≤ total m w := by
    intro m
    induction m with
    | zero => simp [total]
    | succ m ih =>
      simp only [total, List.range_succ, List.map_append, List.sum_append, List.map_cons, List.map_nil, List.sum_cons, List.sum_nil] at ih ⊢
      have := h1 m
      omega
  induction n with
  | zero => omega
  | succ n ih =>
    have hm := mono n
    simp only [total, List.range_succ, List.map_append, List.sum_append, List.map_cons, List.map_nil, List.sum_cons, List.sum_nil] at ih hm ⊢
    by_cases hgn : g = n
    · subst hgn; omega
    · have := ih (by omega)
      have := h1 n
      omega

def weight (s : St) (f : Nat) : Nat :=
  match s.st f with
  | .none | .dying | .ending | .gone => 0
  | .doomed => 2 * (s.locs f).length + 4
  | _ => 2 * (s.locs f).length + 5

def size (s : St) : Nat := 2 * s.pending.length + total s.next (weight s)

theorem size_lt {s : St} {i : Item} {r : List Item} (hi : Inv s) (hh : Hold s) (hp : s.pending = i :: r) : size (destroy1 s r i).1 < size s := by
  have hcf := hi.cf
  rw [hp] at hcf
  have bnd : ∀ f, s.st f ≠ .none → f < s.next := by
    intro f hf
    by_cases hh : f < s.next
    · exact hh
    · exact absurd (hi.zero f (by omega)).1 hf
  have doom : ∀ (s1 : St) (q : Nat), s.st q = .fresh ∨ (∃ c, s.st q = .waiting c) → s1.next = s.next → s1.locs = s.locs →
      (∀ f, f ≠ q → s1.st f = s.st f ∨ s1.st f = .gone) → s1.st q = .doomed → total s1.next (weight s1) + 1 ≤ total s.next (weight s) := by
    intro s1 q hq h1 h2 h3 h4
    rw [h1]
    have hw : weight s1 q + 1 ≤ weight s q := by
      rcases hq with hq | ⟨c, hq⟩ <;> simp [weight, h4, hq, h2]
    refine total_le (bnd q (by rcases hq with hq | ⟨c, hq⟩ <;> simp [hq])) ?_ hw
    intro f
    by_cases hf : f = q
    · subst hf; omega
    · rcases h3 f hf with h | h <;> simp [weight, h, h2]
  have mono : ∀ s1 : St, s1.next = s.next → s1.locs = s.locs → (∀ f, s1.st f = s.st f ∨ s1.st f = .gone) →
      total s1.next (weight s1) ≤ total s.next (weight s) := by
    intro s1 h1 h2 h3
    rw [h1]
    by_cases hz : s.next = 0
    · simp [hz, total]
    · have := total_le (n := s.next) (k := 0) (g := 0) (w := weight s) (w' := weight s1) (by omega) (by
        intro f
        rcases h3 f with h | h <;> simp [weight, h, h2]) (by
        rcases h3 0 with h | h <;> simp [weight, h, h2])
      simpa using this
  rcases i with f | ⟨f, x | c⟩ | f
  · -- a frame
    have hd : s.st f = .doomed := by
      have := hcf f
      simp only [List.count_cons, beq_self_eq_true, if_true] at this
      by_cases hx : s.st f = .doomed
      · exact hx
      · simp only [hx, if_false] at this; omega
    have ht : total s.next (weight { s with
        st := upd s.st f .dying
        locs := upd s.locs f []
        pending := (s.locs f).reverse.map (.loc f) ++ .prom f :: r }) + (2 * (s.locs f).length + 4) ≤ total s.next (weight s) := by
      refine total_le (g := f) (bnd f (by simp [hd])) ?_ (by simp [weight, hd, upd])
      intro g
      by_cases hg : g = f
      · subst hg; simp [weight, upd]
      · simp [weight, upd, hg]
    simp only [size, destroy1, hp, List.length_append, List.length_map, List.length_reverse, List.length_cons]
    omega
  · simp only [size, destroy1, hp, List.length_cons]
    have := mono { s with pending := r } rfl rfl (fun f => .inl rfl)
    simp only at this
    omega
  · simp only [destroy1, dropFut]
    split
    · rename_i hf
      have := doom { s with holder := upd s.holder c .nobody, st := upd s.st c .doomed, pending := .frame c :: r } c (.inl hf) rfl rfl
        (fun f hf => .inl (by simp [upd, hf])) (by simp [upd])
      simp only [size, hp, List.length_cons] at this ⊢
      omega
    · split
      · have := mono { s with holder := upd s.holder c .nobody, pending := r } rfl rfl (fun f => .inl rfl)
        simp only [size, hp, List.length_cons] at this ⊢
        omega
      · split
        · rename_i p hw
          have hwp := (hi.wt c p).1 hw
          have := doom { s with holder := upd s.holder c .nobody, waiter := upd s.waiter c none, st := upd s.st p .doomed, pending := .frame p :: r }
            p (.inr ⟨c, hwp⟩) rfl rfl (fun f hf => .inl (by simp [upd, hf])) (by simp [upd])
          simp only [size, hp, List.length_cons] at this ⊢
          omega
        · have := mono { s with holder := upd s.holder c .nobody, pending := r } rfl rfl (fun f => .inl rfl)
          simp only [size, hp, List.length_cons] at this ⊢
          omega
  · simp only [destroy1, dropProm]
    split
    · split
      · rename_i p hw
        have hwp := (hi.wt f p).1 hw
        have := doom { s with
          prom := upd s.prom f false
          waiter := upd s.waiter f none
          st := upd (upd s.st f .gone) p .doomed
          pending := .frame p :: r } p (.inr ⟨f, hwp⟩) rfl rfl
          (fun g hg => by simp only [upd_apply, hg, if_false]; by_cases h : g = f <;> simp [h]) (by simp [upd])
        simp only [size, hp, List.length_cons] at this ⊢
        omega
      · have := mono { s with prom := upd s.prom f false, st := upd s.st f .gone, pending := r } rfl rfl
          (fun g => by simp only [upd_apply]; by_cases h : g = f <;> simp [h])
        simp only [size, hp, List.length_cons] at this ⊢
        omega
    · have := mono { s with prom := upd s.prom f false, st := upd s.st f .gone, pending := r } rfl rfl
        (fun g => by simp only [upd_apply]; by_cases h : g = f <;> simp [h])
      simp only [size, hp, List.length_cons] at this ⊢
      omega

theorem reaches_run {s s' : St} {tr tr' : List Ev} {ls : List Lbl} (h : machine.Reaches s tr)
    (hr : machine.runFrom s ls = some (s', tr')) : machine.Reaches s' (tr ++ tr') := by
  obtain ⟨l0, h0⟩ := h
  refine ⟨l0 ++ ls, ?_⟩
  simp only [run] at h0 ⊢
  rw [runFrom_append, h0]; simp [hr]

/-- Whatever is destroyed, and however the tasks are nested, the destruction comes to an end. -/
theorem settles {s : St} {tr : List Ev} (h : machine.Reaches s tr) :
    ∃ n s' tr', machine.runFrom s (List.replicate n .cascade) = some (s', tr') ∧ s'.pending = [] := by
  generalize hm : size s = m
  induction m using Nat.strongRecOn generalizing s tr with
  | _ m ih =>
    cases hp : s.pending with
    | nil => exact ⟨0, s, [], rfl, hp⟩
    | cons i r =>
      have ha := all_reach h
      have hlt := size_lt ha.inv ha.hold hp
      have hs : machine.step s .cascade = some (destroy1 s r i) := by simp [machine, step, hp]
      have hr : machine.Reaches (destroy1 s r i).1 (tr ++ (destroy1 s r i).2) := h.step hs
      obtain ⟨n, s', tr', h1, h2⟩ := ih _ (by omega) hr rfl
      refine ⟨n + 1, s', (destroy1 s r i).2 ++ tr', ?_, h2⟩
      rw [List.replicate_succ]
      simp only [runFrom, hs, h1]

theorem condemned_step {s s' : St} {e : List Ev} {f n : Nat} (h : s.st f = .doomed ∨ s.st f = .dying ∨ s.st f = .gone)
    (hr : machine.runFrom s (List.replicate n .cascade) = some (s', e)) (hreach : ∃ tr, machine.Reaches s tr) :
    s'.st f = .doomed ∨ s'.st f = .dying ∨ s'.st f = .gone := by
  induction n generalizing s e with
  | zero => simp only [List.replicate_zero, runFrom, Option.some.injEq, Prod.mk.injEq] at hr; rw [← hr.1]; exact h
  | succ n ih =>
    rw [List.replicate_succ] at hr
    obtain ⟨tr, hreach⟩ := hreach
    have hi := (all_reach hreach).inv
    have hh := (all_reach hreach).hold
    simp only [runFrom] at hr
    split at hr
    · cases hr
    · rename_i s1 e1 hs
      have hr1 := hreach.step hs
      split at hr
      · cases hr
      · rename_i s2 e2 hrun
        simp only [Option.some.injEq, Prod.mk.injEq] at hr
        rw [hr.1] at hrun
        refine ih ?_ hrun ⟨_, hr1⟩
        simp only [machine, step] at hs
        split at hs
        · simp [act] at hs
        · rename_i i r hp
          simp only [if_true, Option.some.injEq] at hs
          have hcf := hi.cf
          have hcp := hi.cp
          have hwt := hi.wt
          have hho := hh.ho
          rw [hp] at hcf hcp hho
          have : s1 = (destroy1 s r i).1 := by rw [hs]
          subst this
          rcases i with g | ⟨g, x | c⟩ | g <;> simp only [destroy1] <;> (try simp only [dropFut, dropProm]) <;> (repeat' split) <;>
            simp only [List.count_cons, Item.frame.injEq, Item.loc.injEq, Item.prom.injEq, reduceCtorEq, beq_iff_eq] at hcf hcp hho <;>
            (try simp only [upd_apply]) <;> grind

/-- When a container (waiting list of a mutex, table of an event loop) goes away, every task suspended in it is destroyed, with all its local
variables. -/
theorem container_destroys {s : St} {tr : List Ev} (h : machine.Reaches s tr) (hq : s.pending = []) {f k : Nat} (hf : s.st f = .parked k) :
    ∃ n s' tr', machine.runFrom s (.dropContainer k :: List.replicate n .cascade) = some (s', tr') ∧ s'.pending = [] ∧ .frameGone f ∈ tr' ∧
      LocalsGone f (tr ++ tr') := by
  have hs : machine.step s (.dropContainer k) = some (doomAll s (fun x => x == .parked k), []) := by simp [machine, step, hq, act]
  have hr := h.step hs
  rw [List.append_nil] at hr
  have hlt : f < s.next := by
    by_cases hh : f < s.next
    · exact hh
    · have := ((all_reach h).inv.zero f (by omega)).1
      rw [hf] at this; cases this
  obtain ⟨n, s', tr', h1, h2⟩ := settles hr
  have hd : (doomAll s (fun x => x == .parked k)).st f = .doomed := by simp [doomAll, hlt, hf]
  have hc := condemned_step (.inl hd) h1 ⟨_, hr⟩
  have hreach := reaches_run hr h1
  obtain ⟨hi', -, hk'⟩ := all_reach hreach
  have hcf := hi'.cf f
  have hcp := hi'.cp f
  rw [h2] at hcf hcp
  simp only [List.count_nil] at hcf hcp
  have hg : s'.st f = .gone := by grind
  have hcount := hk'.gone f
  simp only [hg, if_true] at hcount
  have hmem : .frameGone f ∈ tr ++ tr' := List.count_pos_iff.1 (by omega)
  have hnot : .frameGone f ∉ tr := by
    intro hin
    have := (all_reach h).hist.gone f
    have h3 := List.count_pos_iff.2 hin
    rw [hf] at this
    simp at this
    omega
  refine ⟨n, s', tr', ?_, h2, (List.mem_append.1 hmem).resolve_left hnot, gone_locals hreach hmem⟩
  simp only [runFrom, hs, h1, List.nil_append]

/-! ## The tasks that await a destroyed task -/

/-- Full claim: if a task is destroyed before it has finished, a task that awaits it is destroyed too.  Proved if the future is held outside of
the runtime and is destroyed; missing: see `aborted_refuted`, which shows that it never happens to a task that awaits its own call. -/
theorem awaiting_gone_partial {s : St} {tr : List Ev} (h : machine.Reaches s tr) (hq : s.pending = []) {p c : Nat}
    (hc : .created none c ∈ tr) (hw : Awaiting p c tr) (ha : Aborted c tr) (hd : .dropped c ∈ tr) : .frameGone p ∈ tr := by
  obtain ⟨hi, hh, hk⟩ := all_reach h
  have hcg : s.st c = .gone := by
    have h1 := hk.gone c
    have h2 := List.count_pos_iff.2 ha.1
    by_cases hx : s.st c = .gone
    · exact hx
    · simp only [hx, if_false] at h1; omega
  have hfin : s.fin c = false := by
    have := (hk.fin c).not.1 ha.2
    simpa using this
  have hdr := hk.dr c hd
  have hpr := hi.pr c hdr.1
  have haw := hk.aw p c hw.1
  have hcf := hi.cf p
  have hcp := hi.cp p
  rw [hq] at hcf hcp
  simp only [List.count_nil] at hcf hcp
  have hwt := hi.wt c p
  have hwh := hh.wh c p
  have hg : s.st p = .gone := by
    have := hw.2
    grind
  have := hk.gone p
  simp only [hg, if_true] at this
  exact List.count_pos_iff.1 (by omega)

/-- A task that awaits a call of its own is not destroyed before that call has finished. -/
theorem awaiting_own_kept {s : St} {tr : List Ev} (h : machine.Reaches s tr) {p c : Nat} (hc : .created (some p) c ∈ tr)
    (hw : Awaiting p c tr) (hf : .finished c ∉ tr) : .frameGone p ∉ tr := by
  obtain ⟨-, -, hk⟩ := all_reach h
  have h1 := hk.aw p c hw.1
  have h2 := (hk.fin c).not.1 hf
  have h3 := hw.2
  have h4 : s.st p = .waiting c := by grind
  intro hg
  have h5 := hk.gone p
  have h6 := List.count_pos_iff.2 hg
  rw [h4] at h5
  simp at h5
  omega

/-- A set of tasks of which each awaits its own call, which is in the set, or was destroyed before it had finished. -/
def Lost (L : Nat → Prop) (s : St) : Prop :=
  ∀ p, L p → ∃ c, s.st p = .waiting c ∧ s.holder c = .task p ∧ (s.st c = .gone ∧ s.fin c = false ∨ L c)

set_option maxHeartbeats 1000000 in
theorem lost_act {L : Nat → Prop} {s s' : St} {e : List Ev} {l : Lbl} (hi : Inv s) (h : Lost L s) (hs : act s l = some (s', e)) :
    Lost L s' ∧ ∀ p, L p → .finished p ∉ e ∧ .frameGone p ∉ e ∧ ∀ c, .got p c ∉ e := by
  obtain ⟨i1, i2, -, -, -, i6, i7, i8, i9, i10, -⟩ := hi
  have hst : ∀ p, L p → ∃ c, s.st p = .waiting c ∧ s.holder c = .task p ∧ (s.st c = .gone ∧ s.fin c = false ∨ L c) := h
  cases l <;> simp only [act] at hs <;> (try simp only [dropFut, doomAll, create] at hs) <;> (repeat' split at hs) <;>
    simp only [Option.some.injEq, Prod.mk.injEq, reduceCtorEq] at hs <;> obtain ⟨rfl, rfl⟩ := hs <;>
    (refine ⟨fun p hp => ?_, fun p hp => ?_⟩ <;> obtain ⟨c, h1, h2, h3⟩ := hst p hp) <;> first
      | (refine ⟨c, ?_, ?_, ?_⟩ <;> (try simp only [upd_apply]) <;> grind [isQueued])
      | grind

set_option maxHeartbeats 1000000 in
theorem lost_destroy {L : Nat → Prop} {s : St} {i : Item} {r : List Item} (hi : Inv s) (hh : Hold s) (h : Lost L s) (hp : s.pending = i :: r) :
    Lost L (destroy1 s r i).1 ∧ ∀ p, L p → .finished p ∉ (destroy1 s r i).2 ∧ .frameGone p ∉ (destroy1 s r i).2 ∧
      ∀ c, .got p c ∉ (destroy1 s r i).2 := by
  obtain ⟨i1, i2, i3, i4, i5, i6, i7, i8, i9, i10, -⟩ := hi
  have j1 := hh.ho
  have j2 := hh.fr
  rw [hp] at i3 i4 i5 j1
  have hst : ∀ p, L p → ∃ c, s.st p = .waiting c ∧ s.holder c = .task p ∧ (s.st c = .gone ∧ s.fin c = false ∨ L c) := h
  rcases i with f | ⟨f, x | c'⟩ | f <;> simp only [destroy1] <;> (try simp only [dropFut, dropProm]) <;> (repeat' split) <;>
    (simp only [List.count_cons, Item.frame.injEq, Item.loc.injEq, Item.prom.injEq, reduceCtorEq, beq_iff_eq] at i3 i4 i5 j1) <;>
    (refine ⟨fun p hp => ?_, fun p hp => ?_⟩ <;> obtain ⟨c, h1, h2, h3⟩ := hst p hp) <;> first
      | (refine ⟨c, ?_, ?_, ?_⟩ <;> (try simp only [upd_apply]) <;> grind)
      | grind

/-- If a task is destroyed before it has finished, then the task that awaits it as its own call, the task that awaits that one, and so on, stay
in memory for ever: whatever happens, they are neither resumed nor destroyed. -/
theorem aborted_refuted {s : St} {tr : List Ev} (h : machine.Reaches s tr) {c : Nat} (ha : Aborted c tr) {ps : List Nat} (hch : Chain tr c ps)
    {s' : St} {tr' : List Ev} {ls : List Lbl} (hr : machine.runFrom s ls = some (s', tr')) {p : Nat} (hp : p ∈ ps) :
    .frameGone p ∉ tr ++ tr' ∧ .finished p ∉ tr ++ tr' ∧ ∀ d, .got p d ∉ tr' := by
  have hall := all_reach h
  obtain ⟨hi, hh, hk⟩ := hall
  have hcg : s.st c = .gone ∧ s.fin c = false := by
    have h1 := hk.gone c
    have h2 := List.count_pos_iff.2 ha.1
    have h3 := (hk.fin c).not.1 ha.2
    refine ⟨?_, by simpa using h3⟩
    by_cases hx : s.st c = .gone
    · exact hx
    · simp only [hx, if_false] at h1; omega
  -- the tasks of the chain, and what they wait for
  have key : ∀ (ps : List Nat) (c : Nat), Chain tr c ps → s.fin c = false → ∀ q ∈ ps, ∃ d, s.st q = .waiting d ∧ s.holder d = .task q ∧
      (d = c ∨ d ∈ ps) := by
    intro ps
    induction ps with
    | nil => intro c _ _ q hq; cases hq
    | cons p ps ih =>
      intro c hch hf q hq
      cases hch with
      | cons hcr haw hrest =>
        have h1 := hk.aw p c haw.1
        have h2 := haw.2
        have hst : s.st p = .waiting c := by grind
        have hfp : s.fin p = false := by
          have := hi.fn p
          rw [hst] at this
          cases hx : s.fin p with
          | false => rfl
          | true => simp [hx] at this
        rcases List.mem_cons.1 hq with rfl | hq
        · exact ⟨c, hst, hk.crw _ c hcr hst, .inl rfl⟩
        · obtain ⟨d, h3, h4, h5⟩ := ih p hrest hfp q hq
          refine ⟨d, h3, h4, .inr ?_⟩
          rcases h5 with rfl | h5 <;> simp [*]
  have hlost : Lost (fun q => q ∈ ps) s := by
    intro q hq
    obtain ⟨d, h1, h2, h3⟩ := key ps c hch hcg.2 q hq
    refine ⟨d, h1, h2, ?_⟩
    rcases h3 with rfl | h3
    · exact .inl hcg
    · exact .inr h3
  have hinv := runFrom_inv machine (fun x t => machine.Reaches x (tr ++ t) ∧ Lost (fun q => q ∈ ps) x ∧
      ∀ q ∈ ps, .finished q ∉ t ∧ .frameGone q ∉ t ∧ ∀ d, .got q d ∉ t) (by
    rintro x t l x' e ⟨h1, h2, h3⟩ hs
    have hx := all_reach h1
    refine ⟨by rw [← List.append_assoc]; exact h1.step hs, ?_⟩
    have : Lost (fun q => q ∈ ps) x' ∧ ∀ q, q ∈ ps → .finished q ∉ e ∧ .frameGone q ∉ e ∧ ∀ d, .got q d ∉ e := by
      simp only [machine, step] at hs
      split at hs
      · exact lost_act hx.inv h2 hs
      · rename_i i r hp
        split at hs <;> simp only [Option.some.injEq, reduceCtorEq] at hs
        have := lost_destroy hx.inv hx.hold h2 hp
        rw [hs] at this
        exact this
    refine ⟨this.1, fun q hq => ?_⟩
    have h4 := h3 q hq
    have h5 := this.2 q hq
    simp only [List.mem_append]
    grind) ls s [] s' tr' ⟨by simpa using h, hlost, by simp⟩ hr
  obtain ⟨-, -, h3⟩ := hinv
  have h4 := h3 p hp
  obtain ⟨d, h5, -, -⟩ := hlost p hp
  have h6 := hk.gone p
  rw [h5] at h6
  have h7 : .finished p ∉ tr := by
    intro hx
    have := hi.fn p ((hk.fin p).1 hx)
    simp [h5] at this
  have h8 : .frameGone p ∉ tr := by
    intro hx
    have := List.count_pos_iff.2 hx
    simp at h6
    omega
  simp only [List.mem_append]
  grind

/-! ## Examples -/

/-- Task 0 has a local variable and calls 1 which calls 2 which sleeps in a container that goes away: a chain of two tasks awaits the destroyed
one, and the local variable is alive. -/
theorem aborted_nontrivial : ∃ s tr, machine.Reaches s tr ∧ s.pending = [] ∧ Aborted 2 tr ∧ Chain tr 2 [1, 0] ∧ .made 0 7 ∈ tr ∧
    .destroyed 0 7 ∉ tr := by
  refine ⟨_, [.created none 0, .started 0, .made 0 7, .created (some 0) 1, .started 1, .awaits 0 1, .created (some 1) 2, .started 2, .awaits 1 2,
    .frameGone 2], ⟨[.callOutside false, .make 0 7, .call 0 true, .await 0 1, .take 1, .call 1 true, .await 1 2, .take 2, .park 2 5,
    .dropContainer 5, .cascade, .cascade], rfl⟩, rfl, by simp [Aborted], ?_, by simp, by simp⟩
  exact .cons (by simp) (by simp [Awaiting]) (.cons (by simp) (by simp [Awaiting]) (.nil 0))

/-- A task with two local variables and a call that was not started, asleep in container 5. -/
theorem container_nontrivial : ∃ s tr, machine.Reaches s tr ∧ s.pending = [] ∧ s.st 0 = .parked 5 ∧ .made 0 7 ∈ tr ∧ .made 0 8 ∈ tr ∧
    .created (some 0) 1 ∈ tr ∧ .started 1 ∉ tr :=
  ⟨_, [.created none 0, .started 0, .made 0 7, .created (some 0) 1, .made 0 8],
    ⟨[.callOutside false, .make 0 7, .call 0 true, .make 0 8, .park 0 5], rfl⟩, rfl, rfl, by simp, by simp, by simp, by simp⟩

/-- ... and destroyed: in the order of C++. -/
theorem unstarted_nontrivial : ∃ s tr, machine.Reaches s tr ∧ s.pending = [] ∧ .created (some 0) 1 ∈ tr ∧ .started 1 ∉ tr ∧ .frameGone 0 ∈ tr ∧
    tr.drop 5 = [.destroyed 0 8, .frameGone 1, .destroyed 0 7, .frameGone 0] :=
  ⟨_, [.created none 0, .started 0, .made 0 7, .created (some 0) 1, .made 0 8, .destroyed 0 8, .frameGone 1, .destroyed 0 7, .frameGone 0],
    ⟨[.callOutside false, .make 0 7, .call 0 true, .make 0 8, .park 0 5, .dropContainer 5, .cascade, .cascade, .cascade, .cascade, .cascade,
      .cascade, .cascade], rfl⟩, rfl, by simp, by simp, by simp, rfl⟩

/-- Task 1 awaits task 0 through a future held outside; 0 is destroyed, then the future. -/
theorem awaiting_nontrivial : ∃ s tr, machine.Reaches s tr ∧ s.pending = [] ∧ .created none 0 ∈ tr ∧ Awaiting 1 0 tr ∧ Aborted 0 tr ∧
    .dropped 0 ∈ tr :=
  ⟨_, [.created none 0, .started 0, .created none 1, .started 1, .awaits 1 0, .frameGone 0, .dropped 0, .frameGone 1],
    ⟨[.callOutside false, .callOutside false, .await 1 0, .park 0 5, .dropContainer 5, .cascade, .cascade, .dropOutside 0, .cascade, .cascade],
      rfl⟩, rfl, by simp, by simp [Awaiting], by simp [Aborted], by simp⟩

end Verif.Leak
