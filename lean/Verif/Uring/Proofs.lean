import Verif.Uring.Model
import Mathlib.Data.List.Nodup
import Mathlib.Data.List.Perm.Basic
/-!
# Invariant of the io_uring loop
-/

namespace Verif.Uring

def cqN (s : St) (b : Nat) : Nat := s.cq.countP (·.b == b)
def kernN (s : St) (b : Nat) : Nat := s.kern.countP (·.b == b)
def sqN (s : St) (b : Nat) : Nat := s.sq.countP (·.b == b)

structure Inv (s : St) (tr : List Ev) : Prop where
  noub : Ev.ub ∉ tr
  ck : (s.ops.map Op.c).Nodup
  rk : (s.ops.map Op.r).Nodup
  bn : ∀ c b n k q, Ev.submitted c b n k q ∈ tr → b < s.next
  uniq : ∀ c b n k q c' n' k' q', Ev.submitted c b n k q ∈ tr → Ev.submitted c' b n' k' q' ∈ tr → c = c' ∧ n = n' ∧ q = q'
  live : ∀ o ∈ s.ops, (∃ q, Ev.submitted o.c o.b (s.reps o.r).n 0 q ∈ tr) ∧
    (s.reps o.r).rets ++ (s.cq.filter (·.b == o.b)).map Cqe.res = results o.b tr ∧
    (s.reps o.r).rets.length + cqN s o.b + kernN s o.b + sqN s o.b = (s.reps o.r).n ∧
    (s.reps o.r).rets.length < (s.reps o.r).n
  ownC : ∀ x ∈ s.cq, ∃ o ∈ s.ops, o.c = x.c ∧ o.b = x.b
  ownK : ∀ x ∈ s.kern, ∃ o ∈ s.ops, o.c = x.c ∧ o.b = x.b
  ownS : ∀ x ∈ s.sq, ∃ o ∈ s.ops, o.c = x.c ∧ o.b = x.b
  total : ∀ b, endings b tr + (s.ops.map Op.b).count b = if b < s.next then 1 else 0
  resN : ∀ b, s.next ≤ b → results b tr = []
  over : Ev.ended ∈ tr → s.ops = [] ∧ s.dead = true
  dead : s.dead = true → Ev.ended ∈ tr
  poll : ∀ k, s.poll = some k → ∃ p q out, tr = p ++ .pollBegan true out :: q ∧ (∀ hit o, Ev.pollBegan hit o ∉ q) ∧
    (out = 0 → ∀ x ∈ s.cq.drop k, results x.b q ≠ [])

theorem NoOverflow.left {a b : List Ev} (h : NoOverflow (a ++ b)) : NoOverflow a :=
  fun x hx => h x (List.mem_append_left _ hx)

theorem inv_vis {s : St} {tr : List Ev} (v : Nat) (h : Inv s tr) : Inv { s with vis := v } tr := by
  cases h; constructor <;> assumption

theorem Proper.mono {a b : List Ev} (h : Proper b) (hp : a <+: b) : Proper a :=
  ⟨fun c bb n k q hh => h.1 c bb n k q (hp.subset hh), fun k hh => h.2 k (hp.subset hh)⟩

theorem results_append (b : Nat) (x y : List Ev) : results b (x ++ y) = results b x ++ results b y := by
  simp [results]

theorem endings_append (b : Nat) (x y : List Ev) : endings b (x ++ y) = endings b x + endings b y := by
  simp [endings]

/-- An extension of the trace and state that leaves the bookkeeping alone. -/
theorem inv_neutral {s s' : St} {tr e : List Ev} (h : Inv s tr)
    (h1 : s'.ops = s.ops) (h2 : ∀ o ∈ s.ops, s'.reps o.r = s.reps o.r) (h3 : s'.sq = s.sq) (h4 : s'.kern = s.kern)
    (h5 : s'.cq = s.cq) (h6 : s'.next = s.next) (h7 : s'.dead = s.dead) (h8 : s'.poll = none ∨ s'.poll = s.poll)
    (hpb : ∀ hit o, Ev.pollBegan hit o ∈ e → s'.poll = none)
    (e1 : Ev.ub ∉ e) (e2 : ∀ c b n k q, Ev.submitted c b n k q ∉ e) (e3 : ∀ b, results b e = [])
    (e4 : ∀ b, endings b e = 0) (e5 : Ev.ended ∉ e) : Inv s' (tr ++ e) := by
  obtain ⟨a1, a2, a3, a4, a5, a6, a7, a8, a9, a10, a11, a12, a13, a14⟩ := h
  constructor
  · simp [a1, e1]
  · rw [h1]; exact a2
  · rw [h1]; exact a3
  · intro c b n k q hm; rw [h6]
    rcases List.mem_append.1 hm with hm | hm
    · exact a4 _ _ _ _ _ hm
    · exact absurd hm (e2 _ _ _ _ _)
  · intro c b n k q c' n' k' q' hm hm'
    rcases List.mem_append.1 hm with hm | hm
    · rcases List.mem_append.1 hm' with hm' | hm'
      · exact a5 _ _ _ _ _ _ _ _ _ hm hm'
      · exact absurd hm' (e2 _ _ _ _ _)
    · exact absurd hm (e2 _ _ _ _ _)
  · intro o ho
    rw [h1] at ho
    obtain ⟨⟨q, hq⟩, b1, b2, b3⟩ := a6 o ho
    rw [h2 o ho, h5, results_append, e3]
    simp only [cqN, kernN, sqN, h3, h4, h5] at b2 ⊢
    exact ⟨⟨q, by simp [hq]⟩, by simpa using b1, b2, b3⟩
  · rw [h5, h1]; exact a7
  · rw [h4, h1]; exact a8
  · rw [h3, h1]; exact a9
  · intro b; rw [endings_append, e4, h1, h6]; exact a10 b
  · intro b hb; rw [results_append, e3, a11 b (by omega)]; rfl
  · intro hm; rw [h1, h7]
    rcases List.mem_append.1 hm with hm | hm
    · exact a12 hm
    · exact absurd hm e5
  · intro hd; rw [h7] at hd; exact List.mem_append.2 (Or.inl (a13 hd))
  · intro k hk
    rcases h8 with h8 | h8
    · rw [h8] at hk; simp at hk
    · by_cases hpp : ∃ hit o, Ev.pollBegan hit o ∈ e
      · obtain ⟨hit, o, hm⟩ := hpp
        rw [hpb _ _ hm] at hk; simp at hk
      rw [h8] at hk
      obtain ⟨p, q, out, rfl, hq, hx⟩ := a14 k hk
      refine ⟨p, q ++ e, out, by simp, fun hit o hm => (List.mem_append.1 hm).elim (hq hit o) (fun h => hpp ⟨hit, o, h⟩), ?_⟩
      intro hno x hx'
      have hx := hx hno
      rw [h5] at hx'
      rw [results_append, e3]; simpa using hx x hx'

theorem b_unique {s : St} {tr : List Ev} (h : Inv s tr) {o o' : Op} (ho : o ∈ s.ops) (ho' : o' ∈ s.ops)
    (hb : o.b = o'.b) : o = o' := by
  obtain ⟨⟨q, h1⟩, -⟩ := h.live o ho
  obtain ⟨⟨q', h2⟩, -⟩ := h.live o' ho'
  have h1 : Ev.submitted o.c o'.b (s.reps o.r).n 0 q ∈ tr := hb ▸ h1
  have hc := (h.uniq _ _ _ _ _ _ _ _ _ h1 h2).1
  have := List.inj_on_of_nodup_map h.ck ho ho' hc
  exact this

theorem r_unique {s : St} {tr : List Ev} (h : Inv s tr) {o o' : Op} (ho : o ∈ s.ops) (ho' : o' ∈ s.ops)
    (hb : o.r = o'.r) : o = o' := List.inj_on_of_nodup_map h.rk ho ho' hb

theorem endings_nil (b : Nat) : endings b [] = 0 := rfl

theorem inFlight_false {s : St} {r : Nat} (h : inFlight s r = false) : ∀ o ∈ s.ops, o.r ≠ r := by
  intro o ho hr
  simp only [inFlight, List.any_eq_false] at h
  exact h o ho (by simp [hr])

theorem idle_iff {s : St} : idle s = true ↔ s.dead = false ∧ s.poll = none := by
  simp [idle]

theorem countP_map_new (c b n : Nat) : ∀ b', ((List.range n).map (fun i => (⟨c, b, i⟩ : Sqe))).countP (·.b == b') =
    if b = b' then n else 0 := by
  intro b'
  rw [List.countP_map]
  by_cases h : b = b'
  · subst h
    have : ((fun x : Sqe => x.b == b) ∘ fun i => (⟨c, b, i⟩ : Sqe)) = fun _ => true := by funext i; simp
    rw [this, if_pos rfl]; simp
  · have : ((fun x : Sqe => x.b == b') ∘ fun i => (⟨c, b, i⟩ : Sqe)) = fun _ => false := by funext i; simp [h]
    rw [this, if_neg h]; simp

theorem own_count {α : Type} (l : List α) (f : α → Nat) (b : Nat) (h : ∀ x ∈ l, f x ≠ b) : l.countP (f · == b) = 0 := by
  rw [List.countP_eq_zero]; intro x hx; simpa using h x hx

set_option maxHeartbeats 1600000 in
theorem inv_step {s s' : St} {tr e : List Ev} {l : Lbl} (h : Inv s tr)
    (hs : step s l = some (s', e)) (hp : Proper (tr ++ e)) : Inv s' (tr ++ e) := by
  have hopb : ∀ o ∈ s.ops, o.b < s.next := fun o ho => by
    obtain ⟨⟨q, h1⟩, -⟩ := h.live o ho; exact h.bn _ _ _ _ _ h1
  cases l with
  | newBatch r n =>
    simp only [step] at hs
    split at hs <;> simp only [Option.some.injEq, Prod.mk.injEq, reduceCtorEq] at hs
    rename_i hc
    obtain ⟨rfl, rfl⟩ := hs
    exact inv_neutral h rfl (fun o ho => by dsimp only; rw [upd_ne _ _ (inFlight_false hc.2 o ho)]) rfl rfl rfl rfl rfl
      (Or.inr rfl) (by simp) (by simp) (by simp) (fun _ => rfl) (fun _ => rfl) (by simp)
  | clear r =>
    simp only [step] at hs
    split at hs
    · rename_i hc
      split at hs <;> simp only [Option.some.injEq, Prod.mk.injEq, reduceCtorEq] at hs <;> obtain ⟨rfl, rfl⟩ := hs
      · have := hp.2 0 (by simp); omega
      exact inv_neutral h rfl (fun o ho => by dsimp only; rw [upd_ne _ _ (inFlight_false hc.2 o ho)]) rfl rfl rfl rfl rfl
        (Or.inr rfl) (by simp) (by simp) (by simp) (fun _ => rfl) (fun _ => rfl) (by simp)
    · simp at hs
  | prep r =>
    simp only [step] at hs
    split at hs <;> simp only [Option.some.injEq, Prod.mk.injEq, reduceCtorEq] at hs
    rename_i hc
    obtain ⟨rfl, rfl⟩ := hs
    exact inv_neutral h rfl (fun o ho => by dsimp only; rw [upd_ne _ _ (inFlight_false hc.2 o ho)]) rfl rfl rfl rfl rfl
      (Or.inr rfl) (by simp) (by simp) (by simp) (fun _ => rfl) (fun _ => rfl) (by simp)
  | exec c r acc =>
    simp only [step] at hs
    split at hs
    · rename_i hc
      obtain ⟨hidle, hfl, hcc⟩ := hc
      rw [idle_iff] at hidle
      split at hs
      · simp only [Option.some.injEq, Prod.mk.injEq] at hs
        obtain ⟨rfl, rfl⟩ := hs
        have := hp.1 c s.next (s.reps r).n (s.reps r).rets.length s.sq.length (by simp)
        omega
      split at hs
      · simp only [Option.some.injEq, Prod.mk.injEq] at hs
        obtain ⟨rfl, rfl⟩ := hs
        have hend : ∀ b, endings b [Ev.refused c s.next]
            = if s.next = b then 1 else 0 := by
          intro b; simp [endings, ending, List.countP_cons]
        obtain ⟨a1, a2, a3, a4, a5, a6, a7, a8, a9, a10, a11, a12, a13, a14⟩ := h
        constructor
        · simp [a1]
        · exact a2
        · exact a3
        · intro c' b n k q hm
          simp at hm
          have := a4 _ _ _ _ _ hm; dsimp only; omega
        · intro c1 b n k q c' n' k' q' hm hm'
          simp at hm hm'
          exact a5 _ _ _ _ _ _ _ _ _ hm hm'
        · intro o ho
          obtain ⟨⟨q, hq⟩, b1, b2, b3⟩ := a6 o ho
          refine ⟨⟨q, by simp [hq]⟩, ?_, b2, b3⟩
          rw [results_append]; simpa [results] using b1
        · exact a7
        · exact a8
        · exact a9
        · intro b
          have := a10 b
          rw [endings_append, hend]
          have h0 : ∀ b, s.next ≤ b → (s.ops.map Op.b).count b = 0 := by
            intro b hb; rw [List.count_eq_zero]; intro hm
            obtain ⟨o, ho, rfl⟩ := List.mem_map.1 hm
            have := hopb o ho; omega
          have hb0 := h0 b
          dsimp only
          split at this <;> split <;> split <;> omega
        · intro b hb; rw [results_append, a11 b (by dsimp only at hb; omega)]; rfl
        · intro hm; simp at hm; exact a12 hm
        · intro hd; simp [a13 hd]
        · intro k hk; dsimp only at hk; rw [hidle.2] at hk; simp at hk
      split at hs
      · simp only [Option.some.injEq, Prod.mk.injEq] at hs
        obtain ⟨rfl, rfl⟩ := hs
        have := hp.1 c s.next (s.reps r).n (s.reps r).rets.length s.sq.length (by simp)
        simp only [entries] at *
        omega
      · simp only [Option.some.injEq, Prod.mk.injEq] at hs
        obtain ⟨rfl, rfl⟩ := hs
        have hpr := hp.1 c s.next (s.reps r).n (s.reps r).rets.length s.sq.length (by simp)
        have hrets : (s.reps r).rets = [] := List.eq_nil_of_length_eq_zero hpr.2.1
        have hr := inFlight_false hfl
        obtain ⟨a1, a2, a3, a4, a5, a6, a7, a8, a9, a10, a11, a12, a13, a14⟩ := h
        have hnb : ∀ o ∈ s.ops, o.b ≠ s.next := fun o ho => by have := hopb o ho; omega
        have z1 : s.cq.countP (·.b == s.next) = 0 := own_count _ _ _ fun x hx hb => by
          obtain ⟨o, ho, -, h2⟩ := a7 x hx; exact hnb o ho (h2.trans hb)
        have z2 : s.kern.countP (·.b == s.next) = 0 := own_count _ _ _ fun x hx hb => by
          obtain ⟨o, ho, -, h2⟩ := a8 x hx; exact hnb o ho (h2.trans hb)
        have z3 : s.sq.countP (·.b == s.next) = 0 := own_count _ _ _ fun x hx hb => by
          obtain ⟨o, ho, -, h2⟩ := a9 x hx; exact hnb o ho (h2.trans hb)
        have htd : ∀ b, (s.sq ++ (List.range (s.reps r).n).map (fun i => (⟨c, s.next, i⟩ : Sqe))).countP (·.b == b) =
            ((s.sq ++ (List.range (s.reps r).n).map (fun i => (⟨c, s.next, i⟩ : Sqe))).take acc).countP (·.b == b) +
            ((s.sq ++ (List.range (s.reps r).n).map (fun i => (⟨c, s.next, i⟩ : Sqe))).drop acc).countP (·.b == b) := by
          intro b
          rw [← List.countP_append, List.take_append_drop]
        have hall : ∀ b, (s.sq ++ (List.range (s.reps r).n).map (fun i => (⟨c, s.next, i⟩ : Sqe))).countP (·.b == b) =
            s.sq.countP (·.b == b) + if s.next = b then (s.reps r).n else 0 := by
          intro b; rw [List.countP_append, countP_map_new]
        have hown : ∀ x ∈ s.sq ++ (List.range (s.reps r).n).map (fun i => (⟨c, s.next, i⟩ : Sqe)),
            ∃ o ∈ s.ops ++ [⟨c, r, s.next⟩], o.c = x.c ∧ o.b = x.b := by
          intro x hx
          rcases List.mem_append.1 hx with hx | hx
          · obtain ⟨o, ho, h2⟩ := a9 x hx; exact ⟨o, by simp [ho], h2⟩
          · obtain ⟨i, -, rfl⟩ := List.mem_map.1 hx
            exact ⟨⟨c, r, s.next⟩, by simp, rfl, rfl⟩
        constructor
        · simp [a1]
        · simp only [List.map_append, List.map_cons, List.map_nil]
          refine List.nodup_append.2 ⟨a2, by simp, ?_⟩
          intro x hx y hy
          obtain ⟨o, ho, rfl⟩ := List.mem_map.1 hx
          simp at hy; subst hy; exact hcc o ho
        · simp only [List.map_append, List.map_cons, List.map_nil]
          refine List.nodup_append.2 ⟨a3, by simp, ?_⟩
          intro x hx y hy
          obtain ⟨o, ho, rfl⟩ := List.mem_map.1 hx
          simp at hy; subst hy; exact hr o ho
        · intro c' b n k q hm
          simp at hm
          rcases hm with hm | hm
          · have := a4 _ _ _ _ _ hm; dsimp only; omega
          · dsimp only; omega
        · intro c1 b n k q c' n' k' q' hm hm'
          simp at hm hm'
          rcases hm with hm | hm
          · rcases hm' with hm' | hm'
            · exact a5 _ _ _ _ _ _ _ _ _ hm hm'
            · have := a4 _ _ _ _ _ hm; omega
          · rcases hm' with hm' | hm'
            · have := a4 _ _ _ _ _ hm'; omega
            · obtain ⟨rfl, rfl, rfl, rfl, rfl⟩ := hm; obtain ⟨rfl, -, rfl, rfl, rfl⟩ := hm'; simp
        · intro o ho
          simp only [cqN, kernN, sqN]
          have h1 := htd o.b
          have h2 := hall o.b
          rw [List.countP_append]
          rcases List.mem_append.1 ho with ho | ho
          · obtain ⟨⟨q, hq⟩, b1, b2, b3⟩ := a6 o ho
            refine ⟨⟨q, by simp [hq]⟩, by rw [results_append]; simpa [results] using b1, ?_, b3⟩
            rw [if_neg (Ne.symm (hnb o ho))] at h2
            simp only [cqN, kernN, sqN] at b2
            omega
          · simp only [List.mem_singleton] at ho
            subst ho
            dsimp only at h1 h2 ⊢
            have hres : results s.next tr = [] := a11 _ (Nat.le_refl _)
            have hcq : s.cq.filter (·.b == s.next) = [] := by
              rw [List.filter_eq_nil_iff]; intro x hx; have := List.countP_eq_zero.1 z1 x hx; simpa using this
            refine ⟨⟨s.sq.length, by simp [hrets]⟩, ?_, ?_, ?_⟩
            · rw [results_append, hres, hcq, hrets]; rfl
            · rw [if_pos rfl] at h2
              rw [z1, z2, hrets]; simp only [List.length_nil]; omega
            · rw [hrets]; simp only [List.length_nil]; omega
        · intro x hx; obtain ⟨o, ho, h2⟩ := a7 x hx; exact ⟨o, by simp [ho], h2⟩
        · intro x hx
          rcases List.mem_append.1 hx with hx | hx
          · obtain ⟨o, ho, h2⟩ := a8 x hx; exact ⟨o, by simp [ho], h2⟩
          · exact hown x (List.mem_of_mem_take hx)
        · intro x hx; exact hown x (List.mem_of_mem_drop hx)
        · intro b
          have := a10 b
          have h0 : ∀ b, s.next ≤ b → (s.ops.map Op.b).count b = 0 := by
            intro b hb; rw [List.count_eq_zero]; intro hm
            obtain ⟨o, ho, rfl⟩ := List.mem_map.1 hm
            have := hopb o ho; omega
          have hb0 := h0 b
          have hz : endings b [Ev.submitted c s.next (s.reps r).n (s.reps r).rets.length s.sq.length] = 0 := rfl
          rw [endings_append, hz]
          simp only [List.map_append, List.map_cons, List.map_nil, List.count_append, List.count_cons, List.count_nil,
            beq_iff_eq]
          split at this <;> split <;> split <;> omega
        · intro b hb; rw [results_append, a11 b (by dsimp only at hb; omega)]; rfl
        · intro hm; simp at hm; have := (a12 hm).2; rw [hidle.1] at this; simp at this
        · intro hd; dsimp only at hd; rw [hidle.1] at hd; simp at hd
        · intro k hk; dsimp only at hk; rw [hidle.2] at hk; simp at hk
    · simp at hs
  | complete j res =>
    simp only [step] at hs
    split at hs
    · split at hs <;> [skip; simp at hs]
      rename_i hdead _ x hx
      have common : Inv { s with kern := s.kern.eraseIdx j, cq := s.cq ++ [⟨x.c, x.b, res⟩] } (tr ++ [.completed x.b x.i res]) := ?_
      · split at hs <;> simp only [Option.some.injEq, Prod.mk.injEq] at hs <;> obtain ⟨rfl, rfl⟩ := hs
        · exact inv_vis _ common
        · have := inv_neutral (e := [.overflowed x.b]) common (s' := { s with kern := s.kern.eraseIdx j, cq := s.cq ++ [⟨x.c, x.b, res⟩] })
            rfl (fun _ _ => rfl) rfl rfl rfl rfl rfl (Or.inr rfl) (by simp) (by simp) (by simp) (fun _ => rfl) (fun _ => rfl) (by simp)
          simpa using this
      have hxm : x ∈ s.kern := List.mem_of_getElem? hx
      have hperm : (x :: s.kern.eraseIdx j).Perm s.kern := by
        obtain ⟨hj, rfl⟩ := List.getElem?_eq_some_iff.1 hx
        exact List.getElem_cons_eraseIdx_perm hj
      obtain ⟨a1, a2, a3, a4, a5, a6, a7, a8, a9, a10, a11, a12, a13, a14⟩ := h
      have hres : ∀ b, results b [Ev.completed x.b x.i res] = if x.b = b then [res] else [] := by
        intro b; simp only [results, List.filterMap_cons, List.filterMap_nil]; split <;> simp_all
      constructor
      · simp [a1]
      · exact a2
      · exact a3
      · intro c b n k q hm; simp at hm; exact a4 _ _ _ _ _ hm
      · intro c b n k q c' n' k' q' hm hm'; simp at hm hm'; exact a5 _ _ _ _ _ _ _ _ _ hm hm'
      · intro o ho
        obtain ⟨⟨q, hq⟩, b1, b2, b3⟩ := a6 o ho
        have hk := hperm.countP_eq (·.b == o.b)
        rw [List.countP_cons] at hk
        simp only [cqN, kernN, sqN] at b2 ⊢
        refine ⟨⟨q, by simp [hq]⟩, ?_, ?_, b3⟩
        · rw [results_append, hres, ← b1, List.filter_append, List.map_append, List.append_assoc]
          by_cases hb : x.b = o.b <;> simp [hb]
        · rw [List.countP_append, List.countP_cons, List.countP_nil]
          dsimp only
          split at hk <;> rename_i hb <;> simp only [hb, if_true, Bool.false_eq_true, if_false] <;> omega
      · intro y hy
        rcases List.mem_append.1 hy with hy | hy
        · exact a7 y hy
        · simp only [List.mem_singleton] at hy; subst hy; exact a8 x hxm
      · intro y hy; exact a8 y (hperm.subset (List.mem_cons_of_mem _ hy))
      · exact a9
      · intro b; rw [endings_append]; simpa [endings, ending] using a10 b
      · intro b hb
        rw [results_append, a11 b hb, hres]
        obtain ⟨o, ho, -, h2⟩ := a8 x hxm
        have := hopb o ho
        rw [if_neg (by dsimp only at hb; omega)]; rfl
      · intro hm; simp at hm; exact a12 hm
      · intro hd; dsimp only at hd; rw [hdead] at hd; simp at hd
      · intro k hk
        obtain ⟨p, q, out, rfl, hq, hx'⟩ := a14 k hk
        refine ⟨p, q ++ [.completed x.b x.i res], out, by simp, by simp [hq], ?_⟩
        intro hno y hy
        have hx' := hx' hno
        dsimp only at hy
        rw [List.drop_append] at hy
        rw [results_append, hres]
        rcases List.mem_append.1 hy with hy | hy
        · have := hx' y hy; simp [this]
        · have := List.mem_of_mem_drop hy
          simp only [List.mem_singleton] at this; subst this; simp
    · simp at hs
  | pollBegin =>
    simp only [step] at hs
    split at hs
    · rename_i hidle
      rw [idle_iff] at hidle
      split at hs
      · simp only [Option.some.injEq, Prod.mk.injEq] at hs; obtain ⟨rfl, rfl⟩ := hs
        exact inv_neutral h rfl (fun _ _ => rfl) rfl rfl rfl rfl rfl (Or.inr rfl) (by simp) (by simp) (by simp)
          (fun _ => rfl) (fun _ => rfl) (by simp)
      split at hs
      · simp only [Option.some.injEq, Prod.mk.injEq] at hs; obtain ⟨rfl, rfl⟩ := hs
        exact inv_neutral h rfl (fun _ _ => rfl) rfl rfl rfl rfl rfl (Or.inr rfl) (fun _ _ _ => hidle.2) (by simp) (by simp)
          (fun _ => rfl) (fun _ => rfl) (by simp)
      · simp only [Option.some.injEq, Prod.mk.injEq] at hs; obtain ⟨rfl, rfl⟩ := hs
        have h0 : Inv { s with miss := 1, poll := none } (tr ++ [.pollBegan true (s.cq.length - s.vis)]) :=
          inv_neutral h rfl (fun _ _ => rfl) rfl rfl rfl rfl rfl (Or.inl rfl) (fun _ _ _ => rfl) (by simp) (by simp)
          (fun _ => rfl) (fun _ => rfl) (by simp)
        obtain ⟨a1, a2, a3, a4, a5, a6, a7, a8, a9, a10, a11, a12, a13, a14⟩ := h0
        refine ⟨a1, a2, a3, a4, a5, a6, a7, a8, a9, a10, a11, a12, a13, ?_⟩
        intro k hk
        simp only [Option.some.injEq] at hk
        subst hk
        refine ⟨tr, [], s.cq.length - s.vis, by simp, by simp, fun hno => ?_⟩
        rw [List.drop_eq_nil_of_le (by dsimp only; omega)]; simp
    · simp at hs
  | deal =>
    simp only [step] at hs
    split at hs
    · rename_i hdead
      split at hs
      · rename_i k hk
        split at hs
        · rename_i hcq
          simp only [Option.some.injEq, Prod.mk.injEq] at hs; obtain ⟨rfl, rfl⟩ := hs
          obtain ⟨a1, a2, a3, a4, a5, a6, a7, a8, a9, a10, a11, a12, a13, a14⟩ := h
          rw [List.append_nil]
          refine ⟨a1, a2, a3, a4, a5, a6, a7, a8, a9, a10, a11, a12, a13, ?_⟩
          intro k' hk'
          simp only [Option.some.injEq] at hk'
          subst hk'
          obtain ⟨p, q, out, h1, h2, h3⟩ := a14 _ hk
          exact ⟨p, q, out, h1, h2, fun _ => by dsimp only; simp [hcq]⟩
        · rename_i x rest hcq
          split at hs
          · rename_i hnone
            obtain ⟨o, ho, hoc, -⟩ := h.ownC x (by simp [hcq])
            have := List.find?_eq_none.1 hnone o ho
            simp [hoc] at this
          · rename_i o hfind
            have hoc : o.c = x.c := by have := List.find?_some hfind; simpa using this
            have ho : o ∈ s.ops := List.mem_of_find?_eq_some hfind
            have hob : o.b = x.b := by
              obtain ⟨o', ho', h1, h2⟩ := h.ownC x (by simp [hcq])
              have : o' = o := List.inj_on_of_nodup_map h.ck ho' ho (h1.trans hoc.symm)
              subst this; exact h2
            have hother : ∀ o' ∈ s.ops, o' ≠ o → o'.b ≠ o.b ∧ o'.r ≠ o.r ∧ o'.c ≠ o.c := by
              intro o' ho' hne
              refine ⟨fun hc => hne (b_unique h ho' ho hc), fun hc => hne (r_unique h ho' ho hc),
                fun hc => hne (List.inj_on_of_nodup_map h.ck ho' ho hc)⟩
            have hmy := h.live o ho
            obtain ⟨⟨q0, hq0⟩, m1, m2, m3⟩ := hmy
            have hfil : s.cq.filter (·.b == o.b) = x :: rest.filter (·.b == o.b) := by
              rw [hcq, List.filter_cons_of_pos (by simp [hob])]
            rw [hfil] at m1
            simp only [cqN, kernN, sqN, hcq, List.countP_cons, hob, beq_self_eq_true, if_true] at m2
            simp only [hcq] at hfil
            have hpoll : ∀ q : List Ev, (∀ y ∈ s.cq.drop (k + 1), results y.b q ≠ []) →
                ∀ y ∈ rest.drop k, results y.b q ≠ [] := by
              intro q hy y hy'
              refine hy y ?_
              rw [hcq]; simpa using hy'
            split at hs
            · rename_i hfull
              simp only [Option.some.injEq, Prod.mk.injEq] at hs; obtain ⟨rfl, rfl⟩ := hs
              obtain ⟨a1, a2, a3, a4, a5, a6, a7, a8, a9, a10, a11, a12, a13, a14⟩ := h
              have hz : rest.countP (·.b == o.b) = 0 ∧ s.kern.countP (·.b == o.b) = 0 ∧ s.sq.countP (·.b == o.b) = 0 := by
                rw [hob]; omega
              have hsub : (s.ops.filter (·.c != x.c)).Sublist s.ops := List.filter_sublist
              have hmem : ∀ o' ∈ s.ops, o' ∈ s.ops.filter (·.c != x.c) ↔ o' ≠ o := by
                intro o' ho'
                simp only [List.mem_filter, ho', true_and, bne_iff_ne]
                rw [← hoc]
                exact ⟨fun hc he => hc (by rw [he]), fun hne => (hother o' ho' hne).2.2⟩
              constructor
              · simp [a1]
              · exact a2.sublist (hsub.map _)
              · exact a3.sublist (hsub.map _)
              · intro c b n k q hm; simp at hm; exact a4 _ _ _ _ _ hm
              · intro c b n k q c' n' k' q' hm hm'; simp at hm hm'; exact a5 _ _ _ _ _ _ _ _ _ hm hm'
              · intro o' ho'
                have ho1 := hsub.subset ho'
                have hne := (hmem o' ho1).1 ho'
                obtain ⟨n1, n2, n3⟩ := hother o' ho1 hne
                obtain ⟨⟨q, hq⟩, b1, b2, b3⟩ := a6 o' ho1
                simp only [cqN, kernN, sqN, upd_ne _ _ n2] at b2 ⊢
                have hx : ¬ ((x.b == o'.b) = true) := by rw [← hob]; simpa using Ne.symm n1
                rw [hcq, List.countP_cons, if_neg hx] at b2
                refine ⟨⟨q, by simp [hq]⟩, ?_, b2, b3⟩
                rw [results_append, ← b1, hcq, List.filter_cons_of_neg (p := fun y : Cqe => y.b == o'.b) hx]
                simp [results]
              · intro y hy
                obtain ⟨o', ho', h1, h2⟩ := a7 y (by rw [hcq]; exact List.mem_cons_of_mem _ hy)
                refine ⟨o', (hmem o' ho').2 ?_, h1, h2⟩
                rintro rfl
                have := List.countP_eq_zero.1 hz.1 y hy
                simp [h2] at this
              · intro y hy
                obtain ⟨o', ho', h1, h2⟩ := a8 y hy
                refine ⟨o', (hmem o' ho').2 ?_, h1, h2⟩
                rintro rfl
                have := List.countP_eq_zero.1 hz.2.1 y hy
                simp [h2] at this
              · intro y hy
                obtain ⟨o', ho', h1, h2⟩ := a9 y hy
                refine ⟨o', (hmem o' ho').2 ?_, h1, h2⟩
                rintro rfl
                have := List.countP_eq_zero.1 hz.2.2 y hy
                simp [h2] at this
              · intro b
                have hb := a10 b
                have hcount : ((s.ops.filter (·.c != x.c)).map Op.b).count b + (if o.b = b then 1 else 0) =
                    (s.ops.map Op.b).count b := by
                  have hp1 : (s.ops).Perm (o :: s.ops.filter (·.c != x.c)) := by
                    have hnd : s.ops.Nodup := List.Nodup.of_map _ a2
                    refine (List.perm_ext_iff_of_nodup hnd ?_).2 ?_
                    · refine List.nodup_cons.2 ⟨?_, hnd.sublist hsub⟩
                      intro hm; exact (hmem o ho).1 hm rfl
                    · intro o'
                      constructor
                      · intro ho'
                        by_cases hoo : o' = o
                        · simp [hoo]
                        · exact List.mem_cons_of_mem _ ((hmem o' ho').2 hoo)
                      · intro hm
                        rcases List.mem_cons.1 hm with rfl | hm
                        · exact ho
                        · exact hsub.subset hm
                  rw [(hp1.map Op.b).count_eq]
                  simp [List.count_cons]
                rw [endings_append]
                have he : ∀ v, endings b [Ev.resumed o.c o.b v] = if o.b = b then 1 else 0 := by
                  intro v; simp [endings, ending, List.countP_cons]
                rw [he]
                dsimp only
                omega
              · intro b hb; rw [results_append, a11 b hb]; rfl
              · intro hm; simp at hm; have := (a12 hm).2; rw [hdead] at this; simp at this
              · intro hd; dsimp only at hd; rw [hdead] at hd; simp at hd
              · intro k' hk'
                simp only [Option.some.injEq] at hk'
                subst hk'
                obtain ⟨p, q, out, h1, h2, h3⟩ := a14 _ hk
                refine ⟨p, q ++ [.resumed o.c o.b ((s.reps o.r).rets ++ [x.res])], out, by rw [h1]; simp, by simp [h2], ?_⟩
                intro hno y hy
                have := hpoll q (h3 hno)
                rw [results_append]
                have := this y hy
                simp [this]
            · rename_i hfull
              simp only [Option.some.injEq, Prod.mk.injEq] at hs; obtain ⟨rfl, rfl⟩ := hs
              obtain ⟨a1, a2, a3, a4, a5, a6, a7, a8, a9, a10, a11, a12, a13, a14⟩ := h
              rw [List.append_nil]
              refine ⟨a1, a2, a3, a4, a5, ?_, ?_, a8, a9, a10, a11, a12, a13, ?_⟩
              · intro o' ho'
                by_cases hoo : o' = o
                · subst hoo
                  simp only [cqN, kernN, sqN, upd_same, List.length_append, List.length_cons, List.length_nil]
                  refine ⟨⟨q0, hq0⟩, ?_, ?_, ?_⟩
                  · rw [← m1]; simp
                  · rw [hob]; omega
                  · omega
                · obtain ⟨n1, n2, n3⟩ := hother o' ho' hoo
                  obtain ⟨⟨q, hq⟩, b1, b2, b3⟩ := a6 o' ho'
                  simp only [cqN, kernN, sqN, upd_ne _ _ n2] at b2 ⊢
                  have hx : ¬ ((x.b == o'.b) = true) := by rw [← hob]; simpa using Ne.symm n1
                  rw [hcq, List.countP_cons, if_neg hx] at b2
                  refine ⟨⟨q, hq⟩, ?_, b2, b3⟩
                  rw [← b1, hcq, List.filter_cons_of_neg (p := fun y : Cqe => y.b == o'.b) hx]
              · intro y hy; exact a7 y (by rw [hcq]; exact List.mem_cons_of_mem _ hy)
              · intro k' hk'
                simp only [Option.some.injEq] at hk'
                subst hk'
                obtain ⟨p, q, out, h1, h2, h3⟩ := a14 _ hk
                exact ⟨p, q, out, h1, h2, fun hno => hpoll q (h3 hno)⟩
      · simp at hs
    · simp at hs
  | pollEnd =>
    simp only [step] at hs
    split at hs <;> simp only [Option.some.injEq, Prod.mk.injEq, reduceCtorEq] at hs
    obtain ⟨rfl, rfl⟩ := hs
    exact inv_neutral h rfl (fun _ _ => rfl) rfl rfl rfl rfl rfl (Or.inl rfl) (fun _ _ _ => rfl) (by simp) (by simp)
          (fun _ => rfl) (fun _ => rfl) (by simp)
  | stopHere =>
    simp only [step] at hs
    split at hs <;> simp only [Option.some.injEq, Prod.mk.injEq, reduceCtorEq] at hs
    obtain ⟨rfl, rfl⟩ := hs
    exact inv_neutral h rfl (fun _ _ => rfl) rfl rfl rfl rfl rfl (Or.inr rfl) (by simp) (by simp) (by simp)
          (fun _ => rfl) (fun _ => rfl) (by simp)
  | stopElsewhere =>
    simp only [step] at hs
    split at hs <;> simp only [Option.some.injEq, Prod.mk.injEq, reduceCtorEq] at hs
    obtain ⟨rfl, rfl⟩ := hs
    exact inv_neutral h rfl (fun _ _ => rfl) rfl rfl rfl rfl rfl (Or.inr rfl) (by simp) (by simp) (by simp)
          (fun _ => rfl) (fun _ => rfl) (by simp)
  | quickStop =>
    simp only [step] at hs
    split at hs <;> simp only [Option.some.injEq, Prod.mk.injEq, reduceCtorEq] at hs
    obtain ⟨rfl, rfl⟩ := hs
    exact inv_neutral h rfl (fun _ _ => rfl) rfl rfl rfl rfl rfl (Or.inr rfl) (by simp) (by simp) (by simp)
          (fun _ => rfl) (fun _ => rfl) (by simp)
  | destroy =>
    simp only [step] at hs
    split at hs <;> simp only [Option.some.injEq, Prod.mk.injEq, reduceCtorEq] at hs
    rename_i hidle
    rw [idle_iff] at hidle
    obtain ⟨rfl, rfl⟩ := hs
    obtain ⟨a1, a2, a3, a4, a5, a6, a7, a8, a9, a10, a11, a12, a13, a14⟩ := h
    constructor
    · simp [a1]
    · simp
    · simp
    · intro c b n k q hm; simp at hm; exact a4 _ _ _ _ _ hm
    · intro c b n k q c' n' k' q' hm hm'; simp at hm hm'; exact a5 _ _ _ _ _ _ _ _ _ hm hm'
    · simp
    · simp
    · simp
    · simp
    · intro b
      rw [endings_append, endings_append]
      have h1 : endings b (s.ops.map fun o => Ev.destroyed o.c o.b) = (s.ops.map Op.b).count b := by
        simp only [endings, List.countP_map, List.count, List.countP_map]
        congr 1
      have h2 : endings b [Ev.ended] = 0 := rfl
      have := a10 b
      rw [h1, h2]
      simpa using this
    · intro b hb
      rw [results_append, a11 b hb]
      simp [results]
    · intro _; simp
    · intro _; simp
    · intro k hk; dsimp only at hk; rw [hidle.2] at hk; simp at hk

/-- The ring has the oldest of the completions. -/
theorem vis_inv {s : St} {tr : List Ev} (h : machine.Reaches s tr) :
    s.vis ≤ s.cq.length ∧ (∀ k, s.poll = some k → k ≤ s.vis) ∧ s.vis ≤ cqEntries := by
  refine Machine.Reaches.inv (M := machine) (fun s tr => s.vis ≤ s.cq.length ∧ (∀ k, s.poll = some k → k ≤ s.vis) ∧
    s.vis ≤ cqEntries) ?_ ?_ h
  · simp [machine, init]
  clear h s tr
  intro s tr l s' e ⟨i1, i2, i3⟩ hs
  change step s l = some (s', e) at hs
  cases l <;> simp only [step] at hs <;> (repeat' split at hs) <;>
    simp only [Option.some.injEq, Prod.mk.injEq, reduceCtorEq] at hs <;> obtain ⟨rfl, rfl⟩ := hs <;>
    (refine ⟨?_, ?_, ?_⟩ <;> grind [idle_iff])

theorem inv_of_reaches {s : St} {tr : List Ev} (h : machine.Reaches s tr) (hp : Proper tr) : Inv s tr := by
  revert hp
  refine Machine.Reaches.inv (M := machine) (fun s tr => Proper tr → Inv s tr) ?_ ?_ h
  · intro _
    constructor <;> simp [machine, init, results, endings]
  · intro s tr l s' e ih hs hp
    exact inv_step (ih (hp.mono (List.prefix_append _ _))) hs hp

end Verif.Uring
