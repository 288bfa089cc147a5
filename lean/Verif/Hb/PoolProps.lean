import Verif.Hb.PoolModel
import Verif.Pool.ProofsDrain
import Verif.Common.AtEvent
/-!
# C107: memory is consistent when tasks move between threads
-/

namespace Verif.Hb.Pl
open Machine

/-- What is used of the base machine. -/
structure PInv (N : Nat) (s : Pool.St) : Prop where
  qn : ∀ j x, x ∈ s.queue j → x < s.next
  qr : ∀ j x w, x ∈ s.queue j → s.pc w ≠ .run x
  nd : ∀ j, (s.queue j).Nodup
  ex : ∀ i j x, x ∈ s.queue i → x ∈ s.queue j → i = j
  rn : ∀ w x, s.pc w = .run x → x < s.next ∧ w < N
  ru : ∀ w w' x, s.pc w = .run x → s.pc w' = .run x → w = w'
  jn : s.joined = true → ∀ w, w < N → s.pc w = .exited

theorem joined_mem {N : Nat} {s : Pool.St} {t : List Pool.Ev} (h : (Pool.machine N).Reaches s t) : s.joined = true → Pool.Ev.joined ∈ t := by
  refine h.inv (fun s t => s.joined = true → Pool.Ev.joined ∈ t) (by simp [Pool.machine, Pool.init]) ?_
  intro s tr l s' e ih hs
  change Pool.step N s l = some (s', e) at hs
  cases l <;> simp only [Pool.step] at hs <;> (repeat' split at hs) <;> simp only [Option.some.injEq, Prod.mk.injEq, reduceCtorEq] at hs <;>
    obtain ⟨rfl, rfl⟩ := hs <;> simp_all

theorem pinv_of {N : Nat} {s : Pool.St} {t : List Pool.Ev} (h : (Pool.machine N).Reaches s t) : PInv N s := by
  have hi := Pool.inv_of_reaches h
  have hrun : ∀ w x, s.pc w = .run x → x < s.next := by
    intro w x hw
    have h1 := hi.run w x hw
    have h2 := hi.st x
    by_cases hx : x < s.next
    · exact hx
    · simp [hx] at h2; omega
  constructor
  · intro j x hx; exact (hi.qin j x hx).2.1
  · intro j x w hx hw
    have h1 := (hi.qin j x hx).2.2
    have h2 := (hi.run w x hw).1
    omega
  · exact hi.nodup
  · exact hi.excl
  · intro w x hw
    refine ⟨hrun w x hw, ?_⟩
    rcases hi.fin x (hi.run w x hw).1 with h1 | ⟨w', h1, h2⟩
    · have := (hi.run w x hw).2; omega
    · rw [hi.runU w w' x hw h2]; exact h1
  · exact hi.runU
  · intro hj; exact hi.join (joined_mem h hj)

/-- The base machine runs underneath. -/
theorem base_step {N : Nat} {k : Sync} {s s' : St} {l : Lbl} {e : List Ev} (h : ∃ t, (Pool.machine N).Reaches s.p t) (hs : step N k s l = some (s', e)) :
    ∃ t, (Pool.machine N).Reaches s'.p t := by
  obtain ⟨t, h⟩ := h
  have one : ∀ {l b e'}, Pool.step N s.p l = some (b, e') → ∃ t, (Pool.machine N).Reaches b t := fun hb => ⟨_, h.step hb⟩
  cases l <;> simp only [step] at hs <;> (repeat' split at hs) <;> simp only [Option.some.injEq, Prod.mk.injEq, reduceCtorEq] at hs <;>
    obtain ⟨rfl, rfl⟩ := hs <;> first | exact ⟨t, h⟩ | (apply one; assumption)

theorem base {N : Nat} {k : Sync} {s : St} {tr : List Ev} (h : (machine N k).Reaches s tr) : ∃ t, (Pool.machine N).Reaches s.p t :=
  h.inv (fun s _ => ∃ t, (Pool.machine N).Reaches s.p t) ⟨[], Reaches.init (Pool.machine N)⟩ (fun _ _ _ _ _ hi hs => base_step hi hs)

/-- The steps of the pool that touch neither the queue nor a callable. -/
theorem quiet {N : Nat} {s p' : Pool.St} {l : Pool.Lbl} {e : List Pool.Ev} (h1 : ∀ a i, l ≠ .enqPush a i) (h2 : ∀ w x, l ≠ .take w x) (h3 : ∀ w b, l ≠ .finish w b)
    (h4 : l ≠ .join) (hs : Pool.step N s l = some (p', e)) :
    p'.queue = s.queue ∧ p'.next = s.next ∧ p'.joined = s.joined ∧ ∀ w x, p'.pc w = .run x ↔ s.pc w = .run x := by
  cases l <;> simp only [Pool.step] at hs <;> (repeat' split at hs) <;> simp only [Option.some.injEq, Prod.mk.injEq, reduceCtorEq] at hs <;>
    (try obtain ⟨rfl, rfl⟩ := hs) <;> (try exact absurd rfl (h1 _ _)) <;> (try exact absurd rfl (h2 _ _)) <;> (try exact absurd rfl (h3 _ _)) <;> (try exact absurd rfl h4) <;>
    refine ⟨rfl, rfl, rfl, ?_⟩ <;> intro w x <;> simp only [upd_apply, Pool.afterDone] <;> (repeat' split) <;> simp_all

theorem push_facts {N : Nat} {s p' : Pool.St} {a : Pool.Who} {i : Nat} {e : List Pool.Ev} (hs : Pool.step N s (.enqPush a i) = some (p', e)) :
    p'.queue = upd s.queue i (s.queue i ++ [s.next]) ∧ p'.next = s.next + 1 ∧ p'.joined = s.joined ∧ p'.pc = s.pc := by
  simp only [Pool.step] at hs
  split at hs <;> simp only [Option.some.injEq, Prod.mk.injEq, reduceCtorEq] at hs
  obtain ⟨rfl, -⟩ := hs
  exact ⟨rfl, rfl, rfl, rfl⟩

theorem take_facts {N : Nat} {s : St} {p' : Pool.St} {w x : Nat} {e : List Pool.Ev} (hs : Pool.step N s.p (.take w x) = some (p', e)) :
    x ∈ s.p.queue (src s w) ∧ p'.queue = upd s.p.queue (src s w) ((s.p.queue (src s w)).erase x) ∧ p'.next = s.p.next ∧ p'.joined = s.p.joined ∧
    p'.pc = upd s.p.pc w (.run x) ∧ (∀ y, s.p.pc w ≠ .run y) := by
  simp only [Pool.step] at hs
  (repeat' split at hs) <;> simp only [Option.some.injEq, Prod.mk.injEq, reduceCtorEq] at hs <;> obtain ⟨rfl, -⟩ := hs <;> simp_all [src]

theorem finish_facts {N : Nat} {s p' : Pool.St} {w x : Nat} {b : Bool} {e : List Pool.Ev} (hw : s.pc w = .run x) (hs : Pool.step N s (.finish w b) = some (p', e)) :
    p'.queue = s.queue ∧ p'.next = s.next ∧ p'.joined = s.joined ∧ p'.pc = upd s.pc w (.chkReq false) := by
  simp only [Pool.step, hw] at hs
  split at hs <;> simp only [Option.some.injEq, Prod.mk.injEq, reduceCtorEq] at hs
  obtain ⟨rfl, -⟩ := hs
  exact ⟨rfl, rfl, rfl, rfl⟩

theorem join_facts {N : Nat} {s p' : Pool.St} {e : List Pool.Ev} (hs : Pool.step N s .join = some (p', e)) :
    p'.queue = s.queue ∧ p'.next = s.next ∧ p'.joined = true ∧ p'.pc = s.pc ∧ ∀ w, w < N → s.pc w = .exited := by
  simp only [Pool.step] at hs
  split at hs <;> simp only [Option.some.injEq, Prod.mk.injEq, reduceCtorEq] at hs
  rename_i h
  obtain ⟨rfl, -⟩ := hs
  refine ⟨rfl, rfl, rfl, rfl, ?_⟩
  intro w hw
  have := h.2.2
  rw [List.all_eq_true] at this
  simpa using this w (by simpa using hw)

/-! ### predicates of traces -/

/-- `a` knew i when it submitted x -/
def Sub (a : Act) (x i : Nat) (tr : List Ev) : Prop := ∃ q c, q ++ [.submit a x c] <+: tr ∧ Knew a i q
/-- x knew i, and later a got the result of x -/
def Got (a : Act) (x i : Nat) (tr : List Ev) : Prop := ∃ q, q ++ [.got a x] <+: tr ∧ Knew (.item x) i q

theorem knew_append (a : Act) (i : Nat) (tr e : List Ev) : Knew a i (tr ++ e) ↔ Knew a i tr ∨ Knew a i e := by
  simp only [Knew, List.mem_append]; grind

theorem not_knew_pool (a : Act) (i : Nat) (e : List Pool.Ev) : ¬ Knew a i (e.map .pool) := by simp [Knew]

theorem sub_concat (a : Act) (x i : Nat) (tr : List Ev) (y : Ev) : Sub a x i (tr ++ [y]) ↔ Sub a x i tr ∨ ((∃ c, y = .submit a x c) ∧ Knew a i tr) := by
  constructor
  · rintro ⟨q, c, h, hm⟩
    rw [List.prefix_concat_iff] at h
    rcases h with h | h
    · obtain ⟨rfl, h2⟩ := List.append_inj' h (by simp)
      simp only [List.cons.injEq, and_true] at h2
      exact .inr ⟨⟨c, h2.symm⟩, hm⟩
    · exact .inl ⟨q, c, h, hm⟩
  · rintro (⟨q, c, h, hm⟩ | ⟨⟨c, rfl⟩, hm⟩)
    · exact ⟨q, c, h.trans (List.prefix_append _ _), hm⟩
    · exact ⟨tr, c, List.prefix_rfl, hm⟩

theorem got_concat (a : Act) (x i : Nat) (tr : List Ev) (y : Ev) : Got a x i (tr ++ [y]) ↔ Got a x i tr ∨ (y = .got a x ∧ Knew (.item x) i tr) := by
  constructor
  · rintro ⟨q, h, hm⟩
    rw [List.prefix_concat_iff] at h
    rcases h with h | h
    · obtain ⟨rfl, h2⟩ := List.append_inj' h (by simp)
      simp only [List.cons.injEq, and_true] at h2
      exact .inr ⟨h2.symm, hm⟩
    · exact .inl ⟨q, h, hm⟩
  · rintro (⟨q, h, hm⟩ | ⟨rfl, hm⟩)
    · exact ⟨q, h.trans (List.prefix_append _ _), hm⟩
    · exact ⟨tr, List.prefix_rfl, hm⟩

theorem sub_pool (a : Act) (x i : Nat) (e : List Pool.Ev) : ∀ tr, Sub a x i (tr ++ e.map .pool) ↔ Sub a x i tr := by
  induction e with
  | nil => simp
  | cons y e ih =>
    intro tr
    have h1 := ih (tr ++ [.pool y])
    rw [List.append_assoc, List.singleton_append] at h1
    rw [List.map_cons, h1, sub_concat]; simp

theorem got_pool (a : Act) (x i : Nat) (e : List Pool.Ev) : ∀ tr, Got a x i (tr ++ e.map .pool) ↔ Got a x i tr := by
  induction e with
  | nil => simp
  | cons y e ih =>
    intro tr
    have h1 := ih (tr ++ [.pool y])
    rw [List.append_assoc, List.singleton_append] at h1
    rw [List.map_cons, h1, got_concat]; simp

theorem knew_concat (a : Act) (i : Nat) (tr : List Ev) (y : Ev) : Knew a i (tr ++ [y]) ↔ Knew a i tr ∨ y = .wrote a i ∨ y = .saw a i := by
  simp only [Knew, List.mem_append, List.mem_singleton]; grind

theorem knew_pool (a : Act) (i : Nat) (tr : List Ev) (e : List Pool.Ev) : Knew a i (tr ++ e.map .pool) ↔ Knew a i tr := by
  simp [Knew]

theorem join_apply (a b : View) (i : Nat) : a.join b i = (a i || b i) := rfl

theorem joined_apply (s : St) (i : Nat) : ∀ m, joined s m i = true ↔ ∃ w, w < m ∧ s.thr w i = true
  | 0 => by simp [joined, View.empty]
  | m + 1 => by
    simp only [joined, join_apply, Bool.or_eq_true, joined_apply s i m]
    constructor
    · rintro (⟨w, h1, h2⟩ | h)
      · exact ⟨w, by omega, h2⟩
      · exact ⟨m, by omega, h⟩
    · rintro ⟨w, h1, h2⟩
      by_cases h : w = m
      · exact .inr (h ▸ h2)
      · exact .inl ⟨w, by omega, h2⟩

/-! ### the invariant -/

/-- callable y has i, or will have it -/
structure Has (k : Sync) (s : St) (y i : Nat) : Prop where
  run : ∀ w, s.p.pc w = .run y → s.view (.item y) i = true
  queue : ∀ j, y ∈ s.p.queue j → carried k s j y i = true

/-- coroutine c has i, or will have it -/
def CHas (k : Sync) (s : St) (i : Nat) : CSt → Prop
  | .none => False
  | .parked v => v i = true
  | .item y => y < s.p.next ∧ Has k s y i

structure Inv (N : Nat) (k : Sync) (s : St) (tr : List Ev) : Prop where
  sub : ∀ a x c, .submit a x c ∈ tr → x < s.p.next ∧ s.coro x = c
  wr : ∀ x i, Knew (.item x) i tr → x < s.p.next ∧ ∀ j, x ∉ s.p.queue j
  gt : ∀ x y, .got (.item x) y ∈ tr → x < s.p.next ∧ ∀ j, x ∉ s.p.queue j
  know : ∀ a i, Knew a i tr → s.view a i = true
  start : ∀ a x i, Sub a x i tr → Has k s x i
  co : ∀ x c i, s.coro x = some c → Knew (.item x) i tr → CHas k s i (s.cst c)
  cu : ∀ c y, s.cst c = .item y → y < s.p.next ∧ s.coro y = some c
  got : ∀ a x i, Got a x i tr → s.view a i = true
  mono : ∀ w x i, s.p.pc w = .run x → s.thr w i = true → s.view (.item x) i = true
  thr : ∀ x i, Knew (.item x) i tr → (∃ w, w < N ∧ s.p.pc w = .run x) ∨ ∃ w, w < N ∧ s.thr w i = true
  stop : ∀ t, .stopped t ∈ tr → s.p.joined = true ∧ ∀ x i, Knew (.item x) i tr → s.view (.ext t) i = true
  once : s.p.joined = true → ∀ x i, Knew (.item x) i tr → s.onceV i = true

theorem inv_init (N : Nat) (k : Sync) : Inv N k init [] := by
  constructor <;> simp [init, Pool.init, Knew, Sub, Got]

theorem pool_step {N : Nat} {k : Sync} {s : St} {tr : List Ev} {p' : Pool.St} {l : Pool.Lbl} {e : List Pool.Ev} (h : Inv N k s tr)
    (h1 : ∀ a i, l ≠ .enqPush a i) (h2 : ∀ w x, l ≠ .take w x) (h3 : ∀ w b, l ≠ .finish w b)
    (h4 : l ≠ .join) (hs : Pool.step N s.p l = some (p', e)) : Inv N k { s with p := p' } (tr ++ e.map .pool) := by
  obtain ⟨q1, q2, q3, q4⟩ := quiet h1 h2 h3 h4 hs
  have hc : ∀ i c, CHas k { s with p := p' } i c ↔ CHas k s i c := by
    intro i c
    have hh : ∀ y, Has k { s with p := p' } y i ↔ Has k s y i := by
      intro y
      constructor <;> rintro ⟨a, b⟩ <;> constructor <;> simp only [q1, q4, carried] at * <;> assumption
    cases c <;> simp [CHas, hh, q2]
  obtain ⟨sub, wr, gt, know, start, co, cu, got, mono, thr, stop, once⟩ := h
  constructor <;> simp only [knew_pool, sub_pool, got_pool, List.mem_append, List.mem_map, reduceCtorEq, and_false, exists_false, or_false, q1, q2, q3, q4, hc]
  · exact sub
  · exact wr
  · exact gt
  · exact know
  · intro a x i hx
    obtain ⟨a, b⟩ := start a x i hx
    constructor <;> simp only [q1, q4] <;> assumption
  · exact co
  · exact cu
  · exact got
  · exact mono
  · exact thr
  · exact stop
  · exact once

/-- a step of an actor that only makes its view grow -/
theorem grow_step {N : Nat} {k : Sync} {s : St} {tr : List Ev} {act : Act} {v : View} {y : Ev} {m : Nat} (hp : PInv N s.p) (h : Inv N k s tr)
    (hact : act = .ext m ∨ ∃ w x, s.p.pc w = .run x ∧ act = .item x ∧ user s act = true) (hv : ∀ i, s.view act i = true → v i = true) (n : Nat)
    (hy : (∃ i, y = .wrote act i ∧ v i = true) ∨ (∃ i, y = .saw act i ∧ v i = true) ∨ (∃ i, y = .stale act i) ∨ ∃ x, y = .got act x ∧ ∀ i, s.view (.item x) i = true → v i = true) :
    Inv N k { s with n := n, view := upd s.view act v } (tr ++ [y]) := by
  obtain ⟨qn, qr, nd, ex, rn, ru, jn⟩ := hp
  have hup : ∀ a i, s.view a i = true → upd s.view act v a i = true := by
    intro a i hi
    by_cases ha : a = act
    · subst ha; simpa using hv i hi
    · simpa [upd_apply, ha] using hi
  have hHas : ∀ x i, Has k s x i → Has k { s with n := n, view := upd s.view act v } x i := by
    rintro x i ⟨a, b⟩
    exact ⟨fun w hw => hup _ _ (a w hw), b⟩
  have hC : ∀ c i, CHas k s i c → CHas k { s with n := n, view := upd s.view act v } i c := by
    intro c i hc
    cases c with
    | none => exact hc
    | parked v => exact hc
    | item y => exact ⟨hc.1, hHas _ _ hc.2⟩
  have hk : ∀ a i, Knew a i (tr ++ [y]) → Knew a i tr ∨ (a = act ∧ v i = true) := by
    intro a i hk
    rw [knew_concat] at hk
    rcases hk with hk | rfl | rfl
    · exact .inl hk
    · rcases hy with ⟨j, hj, hjv⟩ | ⟨j, hj, -⟩ | ⟨j, hj⟩ | ⟨x, hj, -⟩ <;> simp at hj
      obtain ⟨rfl, rfl⟩ := hj
      exact .inr ⟨rfl, hjv⟩
    · rcases hy with ⟨j, hj, -⟩ | ⟨j, hj, hjv⟩ | ⟨j, hj⟩ | ⟨x, hj, -⟩ <;> simp at hj
      obtain ⟨rfl, rfl⟩ := hj
      exact .inr ⟨rfl, hjv⟩
  have hns : ∀ a x c, y ≠ .submit a x c := by
    intro a x c hc
    subst hc
    rcases hy with ⟨j, hj, hjv⟩ | ⟨j, hj, -⟩ | ⟨j, hj⟩ | ⟨x, hj, -⟩ <;> simp at hj
  have hnt : ∀ t, y ≠ .stopped t := by
    intro t hc
    subst hc
    rcases hy with ⟨j, hj, hjv⟩ | ⟨j, hj, -⟩ | ⟨j, hj⟩ | ⟨x, hj, -⟩ <;> simp at hj
  have hg : ∀ a x, y = .got a x → a = act ∧ ∀ i, s.view (.item x) i = true → v i = true := by
    intro a x hc
    subst hc
    rcases hy with ⟨j, hj, hjv⟩ | ⟨j, hj, -⟩ | ⟨j, hj⟩ | ⟨x, hj, hjv⟩ <;> simp at hj
    obtain ⟨rfl, rfl⟩ := hj
    exact ⟨rfl, hjv⟩
  have hitem : ∀ x, act = .item x → (∃ w, s.p.pc w = .run x) ∧ user s (.item x) = true := by
    rintro x rfl
    rcases hact with hc | ⟨w, x', h1, h2, h3⟩
    · simp at hc
    · simp only [Act.item.injEq] at h2; subst h2
      exact ⟨⟨w, h1⟩, h3⟩
  obtain ⟨sub, wr, gt, know, start, co, cu, got, mono, thr, stop, once⟩ := h
  have hmem : ∀ x, act = .item x → x < s.p.next ∧ ∀ j, x ∉ s.p.queue j := by
    intro x hx
    obtain ⟨⟨w, hw⟩, -⟩ := hitem x hx
    exact ⟨(rn w x hw).1, fun j hj => qr j x w hj hw⟩
  constructor
  · intro a x c hm
    rcases List.mem_append.1 hm with hm | hm
    · exact sub a x c hm
    · exact absurd (List.mem_singleton.1 hm).symm (hns a x c)
  · intro x i hx
    rcases hk _ _ hx with hx | ⟨hx, -⟩
    · exact wr x i hx
    · exact hmem x hx.symm
  · intro x z hx
    rcases List.mem_append.1 hx with hx | hx
    · exact gt x z hx
    · exact hmem x (hg _ _ (List.mem_singleton.1 hx).symm).1.symm
  · intro a i hx
    rcases hk _ _ hx with hx | ⟨rfl, hx⟩
    · exact hup _ _ (know a i hx)
    · simpa using hx
  · intro a x i hx
    rw [sub_concat] at hx
    rcases hx with hx | ⟨⟨c, hc⟩, -⟩
    · exact hHas _ _ (start a x i hx)
    · exact absurd hc (hns _ _ _)
  · intro x c i hcx hx
    rcases hk _ _ hx with hx | ⟨hx, hvi⟩
    · exact hC _ _ (co x c i hcx hx)
    · obtain ⟨⟨w, hw⟩, hu⟩ := hitem x hx.symm
      change s.coro x = some c at hcx
      simp only [user, hcx] at hu
      cases hcs : s.cst c with
      | none => simp [hcs, CSt.isItem] at hu
      | parked v => simp [hcs, CSt.isItem] at hu
      | item z =>
        simp only [hcs, CSt.isItem, beq_iff_eq] at hu
        subst hu
        refine ⟨(rn w z hw).1, fun w' hw' => ?_, fun j hj => absurd hw (qr j z w hj)⟩
        simp [← hx, hvi]
  · exact cu
  · intro a x i hx
    rw [got_concat] at hx
    rcases hx with hx | ⟨hx, hkn⟩
    · exact hup _ _ (got a x i hx)
    · obtain ⟨rfl, hx⟩ := hg _ _ hx
      simpa using hx i (know _ _ hkn)
  · intro w x i hw ht
    exact hup _ _ (mono w x i hw ht)
  · intro x i hx
    rcases hk _ _ hx with hx | ⟨hx, -⟩
    · exact thr x i hx
    · obtain ⟨⟨w, hw⟩, -⟩ := hitem x hx.symm
      exact .inl ⟨w, (rn w x hw).2, hw⟩
  · intro t ht
    rcases List.mem_append.1 ht with ht | ht
    · obtain ⟨h1, h2⟩ := stop t ht
      refine ⟨h1, fun x i hx => ?_⟩
      rcases hk _ _ hx with hx | ⟨hx, -⟩
      · exact hup _ _ (h2 x i hx)
      · obtain ⟨⟨w, hw⟩, -⟩ := hitem x hx.symm
        have := jn h1 w (rn w x hw).2
        simp [hw] at this
    · exact absurd (List.mem_singleton.1 ht).symm (hnt t)
  · intro hj x i hx
    rcases hk _ _ hx with hx | ⟨hx, -⟩
    · exact once hj x i hx
    · obtain ⟨⟨w, hw⟩, -⟩ := hitem x hx.symm
      have := jn hj w (rn w x hw).2
      simp [hw] at this

theorem carried_has {k : Sync} (hk : k.q ≠ .relaxed) (s : St) (j x i : Nat) :
    carried k s j x i = true ↔ (k.q = .entry ∧ s.entryV x i = true) ∨ (k.q = .lock ∧ s.lockV j i = true) := by
  unfold carried
  cases hq : k.q <;> simp_all

theorem take_step {N : Nat} {k : Sync} {s : St} {tr : List Ev} {p' : Pool.St} {w x : Nat} {e : List Pool.Ev} (hp : PInv N s.p) (hk : k.q ≠ .relaxed) (h : Inv N k s tr)
    (hs : Pool.step N s.p (.take w x) = some (p', e)) :
    Inv N k { s with
        p := p'
        view := upd s.view (.item x) ((s.thr w).join (carried k s (src s w) x))
        lockV := if k.q = QSync.lock then upd s.lockV (src s w) ((s.thr w).join (carried k s (src s w) x)) else s.lockV } (tr ++ e.map .pool) := by
  obtain ⟨f1, f2, f3, f4, f5, f6⟩ := take_facts hs
  obtain ⟨qn, qr, nd, ex, rn, ru, jn⟩ := hp
  have hq : ∀ j y, y ∈ p'.queue j → y ∈ s.p.queue j ∧ y ≠ x := by
    intro j y hy
    rw [f2] at hy
    by_cases hj : j = src s w
    · subst hj
      simp only [upd_same] at hy
      exact ⟨List.mem_of_mem_erase hy, fun hc => by subst hc; exact (nd _).not_mem_erase hy⟩
    · rw [upd_ne _ _ hj] at hy
      exact ⟨hy, fun hc => hj (ex j (src s w) x (hc ▸ hy) f1)⟩
  generalize hs' : { s with
        p := p'
        view := upd s.view (.item x) ((s.thr w).join (carried k s (src s w) x))
        lockV := if k.q = QSync.lock then upd s.lockV (src s w) ((s.thr w).join (carried k s (src s w) x)) else s.lockV } = s'
  have e1 : s'.p = p' := by rw [← hs']
  have e2 : s'.view = upd s.view (.item x) ((s.thr w).join (carried k s (src s w) x)) := by rw [← hs']
  have e3 : s'.thr = s.thr := by rw [← hs']
  have e4 : s'.coro = s.coro := by rw [← hs']
  have e5 : s'.cst = s.cst := by rw [← hs']
  have e6 : s'.onceV = s.onceV := by rw [← hs']
  have hcar : ∀ j y i, carried k s j y i = true → carried k s' j y i = true := by
    intro j y i hy
    rw [← hs']
    rw [carried_has hk] at hy ⊢
    rcases hy with hy | ⟨hy1, hy2⟩
    · exact .inl hy
    · refine .inr ⟨hy1, ?_⟩
      simp only [hy1, ↓reduceIte]
      by_cases hj : j = src s w
      · subst hj; simp [join_apply, carried_has hk, hy1, hy2]
      · simpa [upd_apply, hj] using hy2
  have hview : ∀ a, a ≠ .item x → s'.view a = s.view a := by
    intro a ha; rw [e2, upd_ne _ _ ha]
  have hHas : ∀ y i, Has k s y i → Has k s' y i := by
    rintro y i ⟨a, b⟩
    constructor
    · intro v hv
      rw [e1, f5] at hv
      by_cases hy : y = x
      · subst hy
        rw [e2, upd_same, join_apply, b _ f1]
        simp
      · rw [hview _ (by simpa using hy)]
        by_cases hvw : v = w
        · subst hvw; simp at hv; exact absurd hv.symm hy
        · rw [upd_ne _ _ hvw] at hv; exact a v hv
    · intro j hj
      rw [e1] at hj
      exact hcar _ _ _ (b j (hq j y hj).1)
  have hC : ∀ c i, CHas k s i c → CHas k s' i c := by
    intro c i hc
    cases c with
    | none => exact hc
    | parked v => exact hc
    | item y => exact ⟨by rw [e1, f3]; exact hc.1, hHas _ _ hc.2⟩
  obtain ⟨sub, wr, gt, know, start, co, cu, got, mono, thr, stop, once⟩ := h
  have hnw : ∀ i, ¬ Knew (.item x) i tr := fun i hc => (wr x i hc).2 _ f1
  constructor <;> simp only [knew_pool, sub_pool, got_pool, List.mem_append, List.mem_map, reduceCtorEq, and_false, exists_false, or_false, e1, e3, e4, e5, e6, f3, f4]
  · exact sub
  · intro y i hy
    exact ⟨(wr y i hy).1, fun j hj => (wr y i hy).2 j (hq j y hj).1⟩
  · intro y z hy
    exact ⟨(gt y z hy).1, fun j hj => (gt y z hy).2 j (hq j y hj).1⟩
  · intro a i ha
    rw [hview a (by rintro rfl; exact hnw i ha)]
    exact know a i ha
  · intro a y i hy; exact hHas _ _ (start a y i hy)
  · intro y c i hc hy; exact hC _ _ (co y c i hc hy)
  · exact cu
  · intro a y i hy
    rw [hview a ?_]
    · exact got a y i hy
    · rintro rfl
      obtain ⟨q, hq1, -⟩ := hy
      exact (gt x y (hq1.subset (by simp))).2 _ f1
  · intro v y i hv ht
    rw [f5] at hv
    by_cases hvw : v = w
    · subst hvw
      simp only [upd_same, Pool.Pc.run.injEq] at hv
      subst hv
      rw [e2, upd_same, join_apply, ht]; simp
    · rw [upd_ne _ _ hvw] at hv
      rw [hview _ ?_]
      · exact mono v y i hv ht
      · simp only [ne_eq, Act.item.injEq]; rintro rfl; exact qr _ _ v f1 hv
  · intro y i hy
    rcases thr y i hy with ⟨v, h1, h2⟩ | h1
    · refine .inl ⟨v, h1, ?_⟩
      rw [f5, upd_ne]
      · exact h2
      · rintro rfl; exact f6 _ h2
    · exact .inr h1
  · intro t ht
    exact ⟨(stop t ht).1, fun y i hy => by rw [hview _ (by simp)]; exact (stop t ht).2 y i hy⟩
  · exact once

theorem finish_step {N : Nat} {k : Sync} {s : St} {tr : List Ev} {p' : Pool.St} {w x : Nat} {b : Bool} {e : List Pool.Ev} (hp : PInv N s.p) (h : Inv N k s tr)
    (hw : s.p.pc w = .run x) (hs : Pool.step N s.p (.finish w b) = some (p', e)) :
    Inv N k { s with p := p', thr := upd s.thr w (s.view (.item x)), fin := upd s.fin x true } (tr ++ e.map .pool) := by
  obtain ⟨f1, f2, f3, f4⟩ := finish_facts hw hs
  obtain ⟨qn, qr, nd, ex, rn, ru, jn⟩ := hp
  have hpc : ∀ v y, p'.pc v = .run y → s.p.pc v = .run y := by
    intro v y hv
    rw [f4] at hv
    by_cases hvw : v = w
    · subst hvw; simp at hv
    · rwa [upd_ne _ _ hvw] at hv
  generalize hs' : { s with p := p', thr := upd s.thr w (s.view (.item x)), fin := upd s.fin x true } = s'
  have e1 : s'.p = p' := by rw [← hs']
  have e2 : s'.view = s.view := by rw [← hs']
  have e3 : s'.thr = upd s.thr w (s.view (.item x)) := by rw [← hs']
  have e4 : s'.coro = s.coro := by rw [← hs']
  have e5 : s'.cst = s.cst := by rw [← hs']
  have e6 : s'.onceV = s.onceV := by rw [← hs']
  have e7 : ∀ j y, carried k s' j y = carried k s j y := by intro j y; rw [← hs']; rfl
  have hHas : ∀ y i, Has k s y i → Has k s' y i := by
    rintro y i ⟨a, b⟩
    constructor
    · intro v hv
      rw [e1] at hv
      rw [e2]; exact a v (hpc v y hv)
    · intro j hj
      rw [e1, f1] at hj
      rw [e7]; exact b j hj
  have hC : ∀ c i, CHas k s i c → CHas k s' i c := by
    intro c i hc
    cases c with
    | none => exact hc
    | parked v => exact hc
    | item y => exact ⟨by rw [e1, f2]; exact hc.1, hHas _ _ hc.2⟩
  obtain ⟨sub, wr, gt, know, start, co, cu, got, mono, thr, stop, once⟩ := h
  constructor <;> simp only [knew_pool, sub_pool, got_pool, List.mem_append, List.mem_map, reduceCtorEq, and_false, exists_false, or_false, e1, e2, e4, e5, e6, f1, f2, f3]
  · exact sub
  · exact wr
  · exact gt
  · exact know
  · intro a y i hy; exact hHas _ _ (start a y i hy)
  · intro y c i hc hy; exact hC _ _ (co y c i hc hy)
  · exact cu
  · exact got
  · intro v y i hv ht
    have hv' := hpc v y hv
    have hvw : v ≠ w := by
      rintro rfl; rw [f4] at hv; simp at hv
    rw [e3, upd_ne _ _ hvw] at ht
    exact mono v y i hv' ht
  · intro y i hy
    rcases thr y i hy with ⟨v, h1, h2⟩ | ⟨v, h1, h2⟩
    · by_cases hvw : v = w
      · subst hvw
        have : y = x := by rw [hw] at h2; simpa using h2.symm
        subst this
        exact .inr ⟨v, h1, by rw [e3]; simpa using know _ _ hy⟩
      · exact .inl ⟨v, h1, by rw [f4, upd_ne _ _ hvw]; exact h2⟩
    · refine .inr ⟨v, h1, ?_⟩
      rw [e3]
      by_cases hvw : v = w
      · subst hvw; simpa using mono v x i hw h2
      · rw [upd_ne _ _ hvw]; exact h2
  · exact stop
  · exact once

theorem park_step {N : Nat} {k : Sync} {s : St} {tr : List Ev} {w x c : Nat} (h : Inv N k s tr)
    (hw : s.p.pc w = .run x) (hc : s.coro x = some c) (hi : (s.cst c).isItem x = true) :
    Inv N k { s with cst := upd s.cst c (.parked (s.view (.item x))) } (tr ++ [.parked c]) := by
  have hcs : s.cst c = .item x := by
    cases h : s.cst c <;> simp [h, CSt.isItem] at hi
    rw [hi]
  obtain ⟨sub, wr, gt, know, start, co, cu, got, mono, thr, stop, once⟩ := h
  constructor <;> simp only [knew_concat, sub_concat, got_concat, List.mem_append, List.mem_singleton, reduceCtorEq, or_false, exists_false, false_and]
  · exact sub
  · exact wr
  · exact gt
  · exact know
  · intro a y i hy
    obtain ⟨a, b⟩ := start a y i hy
    exact ⟨a, b⟩
  · intro y d i hd hy
    have h1 := co y d i hd hy
    by_cases hdc : d = c
    · subst hdc
      rw [hcs] at h1
      simpa [CHas] using h1.2.run w hw
    · rw [upd_ne _ _ hdc]
      cases hds : s.cst d with
      | none => rw [hds] at h1; exact h1
      | parked v => rw [hds] at h1; exact h1
      | item z => rw [hds] at h1; exact ⟨h1.1, h1.2.run, h1.2.queue⟩
  · intro d y hd
    by_cases hdc : d = c
    · subst hdc; simp at hd
    · rw [upd_ne _ _ hdc] at hd; exact cu d y hd
  · exact got
  · exact mono
  · exact thr
  · exact stop
  · exact once

theorem stop_step {N : Nat} {k : Sync} {s : St} {tr : List Ev} {p' : Pool.St} {t : Nat} {v ov : View} (h : Inv N k s tr)
    (hq : p'.queue = s.p.queue) (hn : p'.next = s.p.next) (hj : p'.joined = true) (hpc : p'.pc = s.p.pc)
    (hm : ∀ i, s.view (.ext t) i = true → v i = true) (hv : ∀ x i, Knew (.item x) i tr → v i = true) (hov : ∀ x i, Knew (.item x) i tr → ov i = true) :
    Inv N k { s with p := p', view := upd s.view (.ext t) v, onceV := ov } (tr ++ [.stopped t]) := by
  generalize hs' : { s with p := p', view := upd s.view (.ext t) v, onceV := ov } = s'
  have e1 : s'.p = p' := by rw [← hs']
  have e2 : s'.view = upd s.view (.ext t) v := by rw [← hs']
  have e3 : s'.thr = s.thr := by rw [← hs']
  have e4 : s'.coro = s.coro := by rw [← hs']
  have e5 : s'.cst = s.cst := by rw [← hs']
  have e6 : s'.onceV = ov := by rw [← hs']
  have e7 : ∀ j y, carried k s' j y = carried k s j y := by intro j y; rw [← hs']; rfl
  have hup : ∀ a i, s.view a i = true → s'.view a i = true := by
    intro a i ha
    rw [e2]
    by_cases hat : a = .ext t
    · subst hat; simpa using hm i ha
    · rw [upd_ne _ _ hat]; exact ha
  have hHas : ∀ y i, Has k s y i → Has k s' y i := by
    rintro y i ⟨a, b⟩
    constructor
    · intro v hv; rw [e1, hpc] at hv; exact hup _ _ (a v hv)
    · intro j hj; rw [e1, hq] at hj; rw [e7]; exact b j hj
  have hC : ∀ c i, CHas k s i c → CHas k s' i c := by
    intro c i hc
    cases c with
    | none => exact hc
    | parked v => exact hc
    | item y => exact ⟨by rw [e1, hn]; exact hc.1, hHas _ _ hc.2⟩
  obtain ⟨sub, wr, gt, know, start, co, cu, got, mono, thr, stop, once⟩ := h
  constructor <;> simp only [knew_concat, sub_concat, got_concat, List.mem_append, List.mem_singleton, reduceCtorEq, or_false, exists_false, false_and, e1, e3, e4, e5, e6,
    hq, hn, hpc]
  · exact sub
  · exact wr
  · exact gt
  · intro a i ha; exact hup _ _ (know a i ha)
  · intro a y i hy; exact hHas _ _ (start a y i hy)
  · intro y c i hc hy; exact hC _ _ (co y c i hc hy)
  · exact cu
  · intro a x i ha; exact hup _ _ (got a x i ha)
  · intro w x i h1 h2; exact hup _ _ (mono w x i h1 h2)
  · exact thr
  · intro u hu
    refine ⟨hj, fun x i hx => ?_⟩
    by_cases hut : u = t
    · subst hut; rw [e2]; simpa using hv x i hx
    · rcases hu with hu | hu
      · exact hup _ _ ((stop u hu).2 x i hx)
      · simp only [Ev.stopped.injEq] at hu; exact absurd hu hut
  · intro _; exact hov

theorem push_step {N : Nat} {k : Sync} {s : St} {tr : List Ev} {p' : Pool.St} {a : Pool.Who} {i : Nat} {c : Option Nat} {act : Act} {e : List Pool.Ev} (hp : PInv N s.p)
    (hk : k.q ≠ .relaxed) (h : Inv N k s tr) (hf : free s c = true) (hs : Pool.step N s.p (.enqPush a i) = some (p', e)) {s' : St}
    (hs' : s' = { pushV k s act ((s.view act).join (handle s c)) i s.p.next with
            p := p'
            coro := upd s.coro s.p.next c
            cst := moved s s.p.next c }) :
    Inv N k s' (tr ++ [.submit act s.p.next c]) := by
  obtain ⟨f1, f2, f3, f4⟩ := push_facts hs
  obtain ⟨qn, qr, nd, ex, rn, ru, jn⟩ := hp
  generalize hv : (s.view act).join (handle s c) = v at hs'
  have hvact : ∀ j, s.view act j = true → v j = true := by intro j hj; simp [← hv, join_apply, hj]
  have hvh : ∀ j, handle s c j = true → v j = true := by intro j hj; simp [← hv, join_apply, hj]
  have e1 : s'.p = p' := by rw [hs']
  have e3 : s'.thr = s.thr := by rw [hs']; cases hq : k.q <;> simp [pushV, hq]
  have e4 : s'.coro = upd s.coro s.p.next c := by rw [hs']
  have e5 : s'.cst = moved s s.p.next c := by rw [hs']
  have e6 : s'.onceV = s.onceV := by rw [hs']; cases hq : k.q <;> simp [pushV, hq]
  have hup : ∀ b j, s.view b j = true → s'.view b j = true := by
    intro b j hj
    rw [hs']
    by_cases hb : b = act
    · subst hb
      cases hq : k.q <;> simp [pushV, hq, join_apply, hvact j hj]
    · cases hq : k.q <;> simp [pushV, hq, upd_apply, hb, hj]
  have hcar : ∀ j y m, y ≠ s.p.next → carried k s j y m = true → carried k s' j y m = true := by
    intro j y m hy hc
    rw [carried_has hk] at hc ⊢
    rcases hc with ⟨h1, h2⟩ | ⟨h1, h2⟩
    · refine .inl ⟨h1, ?_⟩
      rw [hs']; simp [pushV, h1, upd_apply, hy, h2]
    · refine .inr ⟨h1, ?_⟩
      rw [hs']
      by_cases hj : j = i
      · subst hj; simp [pushV, h1, join_apply, h2]
      · simp [pushV, h1, upd_apply, hj, h2]
  have hnew : ∀ m, v m = true → Has k s' s.p.next m := by
    intro m hm
    constructor
    · intro w hw
      rw [e1, f4] at hw
      have := (rn w _ hw).1; omega
    · intro j hj
      rw [e1, f1] at hj
      have hji : j = i := by
        by_cases hji : j = i
        · exact hji
        · rw [upd_ne _ _ hji] at hj
          have := qn j _ hj; omega
      subst hji
      rw [carried_has hk]
      cases hq : k.q with
      | entry => refine .inl ⟨rfl, ?_⟩; rw [hs']; simp [pushV, hq, hm]
      | lock => refine .inr ⟨rfl, ?_⟩; rw [hs']; simp [pushV, hq, hm, join_apply]
      | relaxed => exact absurd hq hk
  have hq' : ∀ j y, y ≠ s.p.next → y ∈ p'.queue j → y ∈ s.p.queue j := by
    intro j y hy hj
    rw [f1] at hj
    by_cases hji : j = i
    · subst hji; simpa [hy] using hj
    · rwa [upd_ne _ _ hji] at hj
  have hHas : ∀ y m, y < s.p.next → Has k s y m → Has k s' y m := by
    rintro y m hy ⟨a, b⟩
    have hne : y ≠ s.p.next := by omega
    constructor
    · intro w hw; rw [e1, f4] at hw; exact hup _ _ (a w hw)
    · intro j hj
      rw [e1] at hj
      exact hcar _ _ _ hne (b j (hq' j y hne hj))
  obtain ⟨sub, wr, gt, know, start, co, cu, got, mono, thr, stop, once⟩ := h
  constructor <;> simp only [knew_concat, sub_concat, got_concat, List.mem_append, List.mem_singleton, reduceCtorEq, or_false, exists_false, false_and, e1, e3, e4, e5, e6,
    f2, f3, f4]
  · intro b y d hd
    rcases hd with hd | hd
    · obtain ⟨h1, h2⟩ := sub b y d hd
      exact ⟨by omega, by rw [upd_ne _ _ (by omega)]; exact h2⟩
    · simp only [Ev.submit.injEq] at hd
      obtain ⟨rfl, rfl, rfl⟩ := hd
      exact ⟨by omega, by simp⟩
  · intro y m hy
    obtain ⟨h1, h2⟩ := wr y m hy
    exact ⟨by omega, fun j hj => h2 j (hq' j y (by omega) hj)⟩
  · intro y z hy
    obtain ⟨h1, h2⟩ := gt y z hy
    exact ⟨by omega, fun j hj => h2 j (hq' j y (by omega) hj)⟩
  · intro b m hb; exact hup _ _ (know b m hb)
  · intro b y m hy
    rcases hy with hy | ⟨⟨d, hd⟩, hkn⟩
    · have hlt : y < s.p.next := by
        obtain ⟨q, d, h1, -⟩ := hy
        exact (sub b y d (h1.subset (by simp))).1
      exact hHas _ _ hlt (start b y m hy)
    · simp only [Ev.submit.injEq] at hd
      obtain ⟨rfl, rfl, -⟩ := hd
      exact hnew m (hvact m (know _ _ hkn))
  · intro y d m hd hy
    have hlt := (wr y m hy).1
    rw [upd_ne _ _ (by omega)] at hd
    have h1 := co y d m hd hy
    have old : CHas k s' m (s.cst d) := by
      cases hds : s.cst d with
      | none => rw [hds] at h1; exact h1
      | parked v => rw [hds] at h1; exact h1
      | item z =>
        rw [hds] at h1
        exact ⟨by rw [e1, f2]; have := h1.1; omega, hHas _ _ h1.1 h1.2⟩
    cases c with
    | none => exact old
    | some c =>
      by_cases hdc : d = c
      · subst hdc
        simp only [moved, upd_same]
        refine ⟨by rw [e1, f2]; omega, hnew m (hvh m ?_)⟩
        cases hds : s.cst d with
        | none => rw [hds] at h1; exact h1.elim
        | parked v => rw [hds] at h1; simpa [handle, hds, CHas] using h1
        | item z => simp [free, hds] at hf
      · simp only [moved]; rw [upd_ne _ _ hdc]; exact old
  · intro d y hd
    have old : s.cst d = .item y → y < s.p.next + 1 ∧ upd s.coro s.p.next c y = some d := by
      intro hd
      obtain ⟨h1, h2⟩ := cu d y hd
      exact ⟨by omega, by rw [upd_ne _ _ (by omega)]; exact h2⟩
    cases c with
    | none => exact old hd
    | some c =>
      simp only [moved] at hd
      by_cases hdc : d = c
      · subst hdc
        simp only [upd_same, CSt.item.injEq] at hd
        subst hd
        exact ⟨by omega, by simp⟩
      · rw [upd_ne _ _ hdc] at hd; exact old hd
  · intro b y m hb; exact hup _ _ (got b y m hb)
  · intro w y m h1 h2; exact hup _ _ (mono w y m h1 h2)
  · exact thr
  · intro t ht; exact ⟨(stop t ht).1, fun y m hy => hup _ _ ((stop t ht).2 y m hy)⟩
  · exact once

theorem actor_cases {s : St} {a : Pool.Who} {act : Act} (h : actor s a = some act) : (∃ m, act = .ext m) ∨ ∃ w x, s.p.pc w = .run x ∧ act = .item x := by
  cases a with
  | ext m => simp only [actor, Option.some.injEq] at h; exact .inl ⟨m, h.symm⟩
  | wrk w =>
    simp only [actor] at h
    split at h <;> simp only [Option.some.injEq, reduceCtorEq] at h
    exact .inr ⟨w, _, by assumption, h.symm⟩

theorem user_cases {s : St} {a : Pool.Who} {act : Act} (h : actor s a = some act) (hu : user s act = true) :
    ∃ m, act = .ext m ∨ ∃ w x, s.p.pc w = .run x ∧ act = .item x ∧ user s act = true := by
  rcases actor_cases h with ⟨m, h⟩ | ⟨w, x, h1, h2⟩
  · exact ⟨m, .inl h⟩
  · exact ⟨0, .inr ⟨w, x, h1, h2, hu⟩⟩

theorem upd_self (f : Act → View) (a : Act) : upd f a (f a) = f := by
  funext b; by_cases h : b = a <;> simp [upd_apply, h]

theorem inv_step {N : Nat} {k : Sync} (hk : k.q ≠ .relaxed) (hj : k.joins = true) {s s' : St} {tr e : List Ev} {l : Lbl} (hp : PInv N s.p) (h : Inv N k s tr)
    (hs : step N k s l = some (s', e)) : Inv N k s' (tr ++ e) := by
  cases l with
  | pool l =>
    simp only [step] at hs
    split at hs <;> try (simp at hs; done)
    rename_i h1 h2 h3 h4
    split at hs <;> simp only [Option.some.injEq, Prod.mk.injEq, reduceCtorEq] at hs
    rename_i hb
    obtain ⟨rfl, rfl⟩ := hs
    exact pool_step h (by grind) (by grind) (by grind) (by grind) hb
  | push a i c =>
    simp only [step] at hs
    (repeat' split at hs) <;> simp only [Option.some.injEq, Prod.mk.injEq, reduceCtorEq] at hs
    obtain ⟨rfl, rfl⟩ := hs
    exact push_step hp hk h (by assumption) (by assumption) rfl
  | take w x =>
    simp only [step] at hs
    split at hs <;> simp only [Option.some.injEq, Prod.mk.injEq, reduceCtorEq] at hs
    obtain ⟨rfl, rfl⟩ := hs
    exact take_step hp hk h (by assumption)
  | finish w b =>
    simp only [step] at hs
    (repeat' split at hs) <;> simp only [Option.some.injEq, Prod.mk.injEq, reduceCtorEq] at hs
    obtain ⟨rfl, rfl⟩ := hs
    exact finish_step hp h (by assumption) (by assumption)
  | park w =>
    simp only [step] at hs
    (repeat' split at hs) <;> simp only [Option.some.injEq, Prod.mk.injEq, reduceCtorEq] at hs
    obtain ⟨rfl, rfl⟩ := hs
    exact park_step h (by assumption) (by assumption) (by assumption)
  | write a =>
    simp only [step] at hs
    (repeat' split at hs) <;> simp only [Option.some.injEq, Prod.mk.injEq, reduceCtorEq] at hs
    obtain ⟨rfl, rfl⟩ := hs
    rename_i act ha hu
    obtain ⟨m, hm⟩ := user_cases ha hu
    exact grow_step hp h hm (by simp +contextual) _ (.inl ⟨s.n, rfl, by simp⟩)
  | read a i =>
    simp only [step] at hs
    split at hs <;> try (simp at hs; done)
    rename_i act ha
    split at hs <;> simp only [Option.some.injEq, Prod.mk.injEq, reduceCtorEq] at hs
    obtain ⟨rfl, rfl⟩ := hs
    rename_i hu
    obtain ⟨m, hm⟩ := user_cases ha hu.1
    have := grow_step (v := s.view act) (y := if s.view act i = true then .saw act i else .stale act i) hp h hm (fun _ h => h) s.n (by
      by_cases hv : s.view act i = true
      · exact .inr (.inl ⟨i, by simp [hv], hv⟩)
      · exact .inr (.inr (.inl ⟨i, by simp [hv]⟩)))
    rwa [upd_self] at this
  | get a x =>
    simp only [step] at hs
    (repeat' split at hs) <;> simp only [Option.some.injEq, Prod.mk.injEq, reduceCtorEq] at hs
    obtain ⟨rfl, rfl⟩ := hs
    rename_i act ha hu
    obtain ⟨m, hm⟩ := user_cases ha hu.1
    exact grow_step hp h hm (by simp +contextual [join_apply]) s.n (.inr (.inr (.inr ⟨x, rfl, by simp +contextual [join_apply]⟩)))
  | join t =>
    simp only [step] at hs
    split at hs <;> simp only [Option.some.injEq, Prod.mk.injEq, reduceCtorEq] at hs
    obtain ⟨rfl, rfl⟩ := hs
    rename_i hb
    obtain ⟨f1, f2, f3, f4, f5⟩ := join_facts hb
    have hall : ∀ x i, Knew (.item x) i tr → joined s N i = true := by
      intro x i hx
      rw [joined_apply]
      rcases h.thr x i hx with ⟨w, h1, h2⟩ | h1
      · rw [f5 w h1] at h2; simp at h2
      · exact h1
    simp only [hj, ↓reduceIte]
    refine stop_step h f1 f2 f3 f4 ?_ ?_ ?_
    · intro i hi; simp [join_apply, hi]
    · intro x i hx; simp [join_apply, hall x i hx]
    · intro x i hx; simp [join_apply, hall x i hx]
  | passive t =>
    simp only [step] at hs
    split at hs <;> simp only [Option.some.injEq, Prod.mk.injEq, reduceCtorEq] at hs
    obtain ⟨rfl, rfl⟩ := hs
    rename_i hb
    refine stop_step h rfl rfl hb rfl ?_ ?_ ?_
    · intro i hi; simp [join_apply, hi]
    · intro x i hx; simp [join_apply, h.once hb x i hx]
    · exact h.once hb

theorem inv {N : Nat} {k : Sync} (hk : k.q ≠ .relaxed) (hj : k.joins = true) {s : St} {tr : List Ev} (h : (machine N k).Reaches s tr) : Inv N k s tr := by
  refine Reaches.inv' (M := machine N k) (Inv N k) (inv_init N k) ?_ h
  intro s tr l s' e hr hi hs
  obtain ⟨t, ht⟩ := base hr
  exact inv_step hk hj (pinv_of ht) hi hs

/-- at a racy read -/
theorem at_stale {N : Nat} {k : Sync} {s : St} {tr p : List Ev} {act : Act} {i : Nat} (h : (machine N k).Reaches s tr) (hp : p ++ [.stale act i] <+: tr) :
    ∃ s1, (machine N k).Reaches s1 p ∧ s1.view act i = false ∧ ∀ x, act = .item x → (∃ w, s1.p.pc w = .run x) ∧ user s1 (.item x) = true := by
  obtain ⟨q, hq⟩ := hp
  obtain ⟨s1, tr1, l, s2, e, r, hr, hs, hre, rfl⟩ := h.at_event (pre := p) (post := q) (x := .stale act i) (by rw [← hq]; simp)
  have hmem : Ev.stale act i ∈ e := hre.subset (by simp)
  change step N k s1 l = some (s2, e) at hs
  have hl : ∃ a, l = .read a i ∧ actor s1 a = some act ∧ user s1 act = true ∧ s1.view act i = false ∧ e = [.stale act i] := by
    cases l <;> simp only [step] at hs <;> (repeat' split at hs) <;> simp only [Option.some.injEq, Prod.mk.injEq, reduceCtorEq] at hs <;>
      obtain ⟨rfl, rfl⟩ := hs <;> simp at hmem
    all_goals grind
  obtain ⟨a, rfl, h1, h2, h3, rfl⟩ := hl
  have : r = [] := by
    have := hre.length_le
    cases r with
    | nil => rfl
    | cons b r => simp at this
  subst this
  refine ⟨s1, by simpa using hr, h3, ?_⟩
  rintro x rfl
  rcases actor_cases h1 with ⟨m, h⟩ | ⟨w, x', hw, h⟩
  · simp at h
  · simp only [Act.item.injEq] at h; subst h
    exact ⟨⟨w, hw⟩, h2⟩

/-- **C107.**  A callable finds what its submitter knew: arguments, and everything the arguments point to. -/
theorem start_visible (N : Nat) (k : Sync) (hk : k = code ∨ k = codeStd) (s : St) (tr : List Ev) (h : (machine N k).Reaches s tr) : StartVisible tr := by
  have h1 : k.q ≠ .relaxed ∧ k.joins = true := by rcases hk with rfl | rfl <;> simp [code, codeStd]
  rintro p x i hp ⟨q, a, c, hq, hkn⟩
  obtain ⟨s1, hr, hv, hx⟩ := at_stale h hp
  obtain ⟨⟨w, hw⟩, -⟩ := hx x rfl
  have := ((inv h1.1 h1.2 hr).start a x i ⟨q, c, hq, hkn⟩).run w hw
  simp [hv] at this

/-- **C107.**  A task finds what it has written, on whatever threads it is resumed. -/
theorem task_visible (N : Nat) (k : Sync) (hk : k = code ∨ k = codeStd) (s : St) (tr : List Ev) (h : (machine N k).Reaches s tr) : TaskVisible tr := by
  have h1 : k.q ≠ .relaxed ∧ k.joins = true := by rcases hk with rfl | rfl <;> simp [code, codeStd]
  rintro p x i hp ⟨c, a, b, y, hx, hy, hkn⟩
  obtain ⟨s1, hr, hv, hxx⟩ := at_stale h hp
  obtain ⟨⟨w, hw⟩, hu⟩ := hxx x rfl
  have hi := inv h1.1 h1.2 hr
  have hcx := (hi.sub _ _ _ hx).2
  have hcy := (hi.sub _ _ _ hy).2
  have hc := hi.co y c i hcy hkn
  simp only [user, hcx] at hu
  cases hcs : s1.cst c with
  | none => simp [hcs, CSt.isItem] at hu
  | parked v => simp [hcs, CSt.isItem] at hu
  | item z =>
    simp only [hcs, CSt.isItem, beq_iff_eq] at hu
    subst hu
    rw [hcs] at hc
    have := hc.2.run w hw
    simp [hv] at this

/-- **C107.**  Who has got a callable's result finds what the callable has done. -/
theorem result_visible (N : Nat) (k : Sync) (hk : k = code ∨ k = codeStd) (s : St) (tr : List Ev) (h : (machine N k).Reaches s tr) : ResultVisible tr := by
  have h1 : k.q ≠ .relaxed ∧ k.joins = true := by rcases hk with rfl | rfl <;> simp [code, codeStd]
  rintro p a i hp ⟨q, x, hq, hkn⟩
  obtain ⟨s1, hr, hv, -⟩ := at_stale h hp
  have := (inv h1.1 h1.2 hr).got a x i ⟨q, hq, hkn⟩
  simp [hv] at this

/-- **C107.**  After stop() or quick_stop() has returned to a thread, it finds everything the pool has done. -/
theorem stop_visible (N : Nat) (k : Sync) (hk : k = code ∨ k = codeStd) (s : St) (tr : List Ev) (h : (machine N k).Reaches s tr) : StopVisible tr := by
  have h1 : k.q ≠ .relaxed ∧ k.joins = true := by rcases hk with rfl | rfl <;> simp [code, codeStd]
  intro p t i hp ht x hkn
  obtain ⟨s1, hr, hv, -⟩ := at_stale h hp
  have := ((inv h1.1 h1.2 hr).stop t ht).2 x i hkn
  simp [hv] at this

/-- Two workers: thread 0 writes and starts task 7, which reads, writes and suspends on worker 0; thread 1 wakes it up, it goes on on worker 1 and ends with an
exception; a function's result is fetched by thread 1; quick_stop() is called by threads 0 and 5. -/
def sample : List Lbl :=
  [.write (.ext 0), .pool (.enqTest (.ext 0)), .push (.ext 0) 0 (some 7), .pool (.work 0), .take 0 0, .read (.wrk 0) 0, .write (.wrk 0), .park 0,
   .pool (.enqTest (.ext 1)), .push (.ext 1) 1 (some 7), .pool (.enqTest (.ext 1)), .push (.ext 1) 1 none, .pool (.work 1), .take 1 1, .finish 0 false,
   .read (.wrk 1) 1, .read (.wrk 1) 0, .write (.wrk 1), .finish 1 true, .pool (.work 1), .take 1 2, .write (.wrk 1), .finish 1 false, .get (.ext 1) 2, .read (.ext 1) 3,
   .pool .setNow, .pool .reqStop, .pool (.work 0), .pool (.work 0), .pool (.work 1), .pool (.work 1), .join 0, .passive 5, .read (.ext 0) 2, .read (.ext 5) 1]

def sampleTrace : List Ev :=
  [.wrote (.ext 0) 0, .pool (.enqCalled (.ext 0)), .submit (.ext 0) 0 (some 7), .pool (.started 0 0), .saw (.item 0) 0, .wrote (.item 0) 1, .parked 7,
   .pool (.enqCalled (.ext 1)), .submit (.ext 1) 1 (some 7), .pool (.enqCalled (.ext 1)), .submit (.ext 1) 2 none, .pool (.started 1 1), .pool (.finished 0 0 false),
   .saw (.item 1) 1, .saw (.item 1) 0, .wrote (.item 1) 2, .pool (.finished 1 1 true), .pool (.started 1 2), .wrote (.item 2) 3, .pool (.finished 1 2 false),
   .got (.ext 1) 2, .saw (.ext 1) 3, .pool .stopNow, .pool .stopRequested, .pool (.exited 0), .pool (.exited 1), .stopped 0, .stopped 5, .saw (.ext 0) 2, .saw (.ext 5) 1]

/-- This happens, with either queue. -/
theorem hb_pool_nontrivial : (∃ s, (machine 2 code).Reaches s sampleTrace) ∧ ∃ s, (machine 2 codeStd).Reaches s sampleTrace :=
  ⟨⟨_, sample, rfl⟩, ⟨_, sample, rfl⟩⟩

/-- Not everything is visible to everybody: that a function has ended, and its queue is empty, tells the submitter nothing about what it did. -/
theorem unsynchronised_read_races : ∃ s, (machine 1 code).Reaches s
    [.pool (.enqCalled (.ext 0)), .submit (.ext 0) 0 none, .pool (.started 0 0), .wrote (.item 0) 0, .pool (.finished 0 0 false), .stale (.ext 0) 0] :=
  ⟨_, [.pool (.enqTest (.ext 0)), .push (.ext 0) 0 none, .pool (.work 0), .take 0 0, .write (.wrk 0), .finish 0 false, .read (.ext 0) 0], rfl⟩

/-- **C107, why.**  It is the queue that makes tasks consistent: with a queue that does not synchronise neither a callable's arguments nor a task's own variables are safe
(m_cond and the flags do not help). -/
theorem queue_must_synchronise : (∃ s tr, (machine 2 ⟨.relaxed, true⟩).Reaches s tr ∧ ¬ StartVisible tr) ∧ ∃ s tr, (machine 2 ⟨.relaxed, true⟩).Reaches s tr ∧ ¬ TaskVisible tr := by
  constructor
  · refine ⟨_, [.wrote (.ext 0) 0, .pool (.enqCalled (.ext 0)), .submit (.ext 0) 0 none, .pool (.started 0 0), .stale (.item 0) 0],
      ⟨[.write (.ext 0), .pool (.enqTest (.ext 0)), .push (.ext 0) 0 none, .pool (.work 0), .take 0 0, .read (.wrk 0) 0], rfl⟩, ?_⟩
    intro h
    exact h [.wrote (.ext 0) 0, .pool (.enqCalled (.ext 0)), .submit (.ext 0) 0 none, .pool (.started 0 0)] 0 0 (by simp)
      ⟨[.wrote (.ext 0) 0, .pool (.enqCalled (.ext 0))], .ext 0, none, by simp, by simp [Knew]⟩
  · refine ⟨_, [.pool (.enqCalled (.ext 0)), .submit (.ext 0) 0 (some 7), .pool (.started 0 0), .wrote (.item 0) 0, .parked 7, .pool (.enqCalled (.wrk 0)),
        .submit (.item 0) 1 (some 7), .pool (.started 1 1), .stale (.item 1) 0],
      ⟨[.pool (.enqTest (.ext 0)), .push (.ext 0) 0 (some 7), .pool (.work 0), .take 0 0, .write (.wrk 0), .park 0, .pool (.enqTest (.wrk 0)), .push (.wrk 0) 1 (some 7),
        .pool (.work 1), .take 1 1, .read (.wrk 1) 0], rfl⟩, ?_⟩
    intro h
    exact h [.pool (.enqCalled (.ext 0)), .submit (.ext 0) 0 (some 7), .pool (.started 0 0), .wrote (.item 0) 0, .parked 7, .pool (.enqCalled (.wrk 0)),
      .submit (.item 0) 1 (some 7), .pool (.started 1 1)] 1 0 (by simp) ⟨7, .item 0, .ext 0, 0, by simp, by simp, by simp [Knew]⟩

/-- ... and it is join() that makes everything visible after stop(). -/
theorem stop_must_join : ∃ s tr, (machine 1 ⟨.entry, false⟩).Reaches s tr ∧ ¬ StopVisible tr := by
  refine ⟨_, [.pool (.enqCalled (.ext 0)), .submit (.ext 0) 0 none, .pool .stopRequested, .pool (.started 0 0), .wrote (.item 0) 0, .pool (.finished 0 0 false),
      .pool (.exited 0), .stopped 0, .stale (.ext 0) 0],
    ⟨[.pool (.enqTest (.ext 0)), .push (.ext 0) 0 none, .pool (.work 0), .pool .reqStop, .take 0 0, .write (.wrk 0), .finish 0 false, .pool (.work 0), .pool (.work 0),
      .pool (.work 0), .pool (.work 0), .join 0, .read (.ext 0) 0], rfl⟩, ?_⟩
  intro h
  exact h [.pool (.enqCalled (.ext 0)), .submit (.ext 0) 0 none, .pool .stopRequested, .pool (.started 0 0), .wrote (.item 0) 0, .pool (.finished 0 0 false),
      .pool (.exited 0), .stopped 0] 0 0 (by simp) (by simp) 0 (by simp [Knew])

end Verif.Hb.Pl
