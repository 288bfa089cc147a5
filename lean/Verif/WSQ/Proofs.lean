import Verif.WSQ.Model
/-! Invariants of the work stealing queue. -/

namespace Verif.WSQ

@[simp] theorem tE_append (x : Nat) (a b : List Ev) :
    timesEnqueued x (a ++ b) = timesEnqueued x a + timesEnqueued x b := List.countP_append
@[simp] theorem tG_append (x : Nat) (a b : List Ev) :
    timesGot x (a ++ b) = timesGot x a + timesGot x b := List.countP_append
@[simp] theorem aE_append (a b : List Ev) : allEnqueued (a ++ b) = allEnqueued a + allEnqueued b :=
  List.countP_append
@[simp] theorem aG_append (a b : List Ev) : allGot (a ++ b) = allGot a + allGot b := List.countP_append

/-- Queues a caller may still touch. -/
def Pc.qs : Pc → List Nat
  | .enqPush _ m | .deqOwn _ m | .addStore _ m => qids m
  | .steal r | .sizing r _ => r
  | _ => []

/-- Total number of queued tasks of a map. -/
def total (c : Nat → List Nat) (m : Map) : Nat := ((qids m).map fun i => (c i).length).sum

theorem sum_upd (c : Nat → List Nat) (i : Nat) (l : List Nat) :
    ∀ (vs : List Nat), vs.Nodup → i ∈ vs →
      (vs.map fun j => (upd c i l j).length).sum + (c i).length
        = (vs.map fun j => (c j).length).sum + l.length := by
  intro vs
  induction vs with
  | nil => intro _ h; simp at h
  | cons v vs ih =>
    intro hn hi
    simp only [List.nodup_cons] at hn
    by_cases hv : v = i
    · subst hv
      have : (vs.map fun j => (upd c v l j).length) = vs.map fun j => (c j).length := by
        apply List.map_congr_left
        intro j hj
        rw [upd_ne]; intro e; subst e; exact hn.1 hj
      simp only [List.map_cons, List.sum_cons, upd_same, this]; omega
    · have := ih hn.2 (by simpa [Ne.symm hv] using hi)
      simp only [List.map_cons, List.sum_cons, upd_ne c l hv]; omega

theorem total_push {c : Nat → List Nat} {m : Map} {i : Nat} (x : Nat) (hn : (qids m).Nodup)
    (hi : i ∈ qids m) : total (upd c i (c i ++ [x])) m = total c m + 1 := by
  have := sum_upd c i (c i ++ [x]) _ hn hi
  unfold total; simp at this ⊢; omega

theorem total_erase {c : Nat → List Nat} {m : Map} {i x : Nat} (hn : (qids m).Nodup)
    (hi : i ∈ qids m) (hx : x ∈ c i) : total (upd c i ((c i).erase x)) m + 1 = total c m := by
  have := sum_upd c i ((c i).erase x) _ hn hi
  have h2 := List.length_erase_of_mem hx
  have h3 := List.length_pos_of_mem hx
  unfold total; omega

/-- The one current map: published, or in the hands of the thread that extends it. -/
def Cur (s : St) (m : Map) : Prop :=
  (s.pub = some m ∧ ∀ a t m', s.pc a ≠ .addStore t m') ∨
  (s.pub = none ∧ ∃ a t, s.pc a = .addStore t m ∧ ∀ b t' m', s.pc b = .addStore t' m' → b = a)

structure Inv (s : St) (tr : List Ev) (m : Map) : Prop where
  cur   : Cur s m
  nk    : (keys m).Nodup
  nq    : (qids m).Nodup
  lt    : ∀ i ∈ qids m, i < s.nextQ
  snap  : ∀ a, ∀ i ∈ (s.pc a).qs, i ∈ qids m
  cont  : ∀ i x, x ∈ s.content i → i ∈ qids m
  reg   : ∀ t, t ∈ keys m ↔ Registered t tr
  nd    : ∀ i, (s.content i).Nodup
  excl  : ∀ i j x, x ∈ s.content i → x ∈ s.content j → i = j
  enq   : ∀ x, timesEnqueued x tr = if x < s.next then 1 else 0
  inq   : ∀ i x, x ∈ s.content i → timesGot x tr = 0 ∧ x < s.next
  out   : ∀ x, (∀ i, x ∉ s.content i) → timesGot x tr = timesEnqueued x tr
  size  : total s.content m + allGot tr = allEnqueued tr

theorem mem_qids {m : Map} {t i : Nat} (h : (t, i) ∈ m) : i ∈ qids m :=
  List.mem_map.2 ⟨_, h, rfl⟩
theorem mem_keys {m : Map} {t i : Nat} (h : (t, i) ∈ m) : t ∈ keys m :=
  List.mem_map.2 ⟨_, h, rfl⟩

theorem inv_init : Inv init [] [] := by
  constructor <;> simp [Cur, init, keys, qids, Pc.qs, Registered, timesEnqueued, timesGot, total, allGot, allEnqueued]

theorem Cur.move {s : St} {m : Map} (h : Cur s m) (a : Nat) (p : Pc) (c : Nat → List Nat) (n : Nat)
    (h0 : ∀ t m', s.pc a ≠ .addStore t m') (h1 : ∀ t m', p ≠ .addStore t m') :
    Cur { s with pc := upd s.pc a p, content := c, next := n } m := by
  rcases h with ⟨hp, hn⟩ | ⟨hp, b, t, hb, hu⟩
  · left; refine ⟨hp, ?_⟩
    intro b t m'; dsimp only; rw [upd_apply]; split
    · exact h1 _ _
    · exact hn _ _ _
  · right
    have hba : b ≠ a := by rintro rfl; exact h0 _ _ hb
    refine ⟨hp, b, t, by dsimp only; rw [upd_ne _ _ hba]; exact hb, ?_⟩
    intro c t' m'; dsimp only; rw [upd_apply]; split
    · intro hc; exact absurd hc (h1 _ _)
    · exact hu _ _ _

/-- Steps that only move a program counter, keep the map and emit nothing that counts. -/
theorem Inv.move {s : St} {tr : List Ev} {m : Map} (h : Inv s tr m) (a : Nat) (p : Pc) (e : List Ev)
    (h0 : ∀ t m', s.pc a ≠ .addStore t m') (h1 : ∀ t m', p ≠ .addStore t m')
    (h2 : ∀ i ∈ p.qs, i ∈ qids m)
    (he : ∀ x ∈ e, (∃ b o, x = .called b o) ∨ (∃ b, x = .gotNone b) ∨ (∃ b n, x = .sizeIs b n) ∨ ∃ b, x = .ub b) :
    Inv { s with pc := upd s.pc a p } (tr ++ e) m := by
  have c1 : ∀ x, timesEnqueued x e = 0 := by
    intro x; unfold timesEnqueued; rw [List.countP_eq_zero]
    intro y hy; rcases he y hy with ⟨_, _, rfl⟩ | ⟨_, rfl⟩ | ⟨_, _, rfl⟩ | ⟨_, rfl⟩ <;> simp
  have c2 : ∀ x, timesGot x e = 0 := by
    intro x; unfold timesGot; rw [List.countP_eq_zero]
    intro y hy; rcases he y hy with ⟨_, _, rfl⟩ | ⟨_, rfl⟩ | ⟨_, _, rfl⟩ | ⟨_, rfl⟩ <;> simp
  have c3 : allEnqueued e = 0 := by
    unfold allEnqueued; rw [List.countP_eq_zero]
    intro y hy; rcases he y hy with ⟨_, _, rfl⟩ | ⟨_, rfl⟩ | ⟨_, _, rfl⟩ | ⟨_, rfl⟩ <;> simp
  have c4 : allGot e = 0 := by
    unfold allGot; rw [List.countP_eq_zero]
    intro y hy; rcases he y hy with ⟨_, _, rfl⟩ | ⟨_, rfl⟩ | ⟨_, _, rfl⟩ | ⟨_, rfl⟩ <;> simp
  constructor <;> try dsimp only
  · exact h.cur.move a p s.content s.next h0 h1
  · exact h.nk
  · exact h.nq
  · exact h.lt
  · intro b i; rw [upd_apply]; split
    · exact h2 i
    · exact h.snap b i
  · exact h.cont
  · intro t; rw [h.reg t]
    constructor
    · rintro ⟨b, hb⟩; exact ⟨b, by simp [hb]⟩
    · rintro ⟨b, hb⟩
      simp only [List.mem_append] at hb
      rcases hb with hb | hb
      · exact ⟨b, hb⟩
      · rcases he _ hb with ⟨_, _, h⟩ | ⟨_, h⟩ | ⟨_, _, h⟩ | ⟨_, h⟩ <;> simp at h
  · exact h.nd
  · exact h.excl
  · intro x; simp [c1, h.enq]
  · intro i x hx; simpa [c2] using h.inq i x hx
  · intro x hx; simpa [c1, c2] using h.out x hx
  · simpa [c3, c4] using h.size

theorem Inv.take {s : St} {tr : List Ev} {m : Map} (h : Inv s tr m) (a i x : Nat)
    (h0 : ∀ t m', s.pc a ≠ .addStore t m') (hi : i ∈ (s.pc a).qs) (hx : x ∈ s.content i) :
    Inv { s with content := upd s.content i ((s.content i).erase x), pc := upd s.pc a .idle }
      (tr ++ [.got a x]) m := by
  have him := h.snap a i hi
  have hx0 := h.inq i x hx
  have hmem : ∀ j y, y ∈ upd s.content i ((s.content i).erase x) j → y ∈ s.content j ∧ y ≠ x := by
    intro j y
    by_cases hj : j = i
    · subst hj; rw [upd_same, (h.nd j).mem_erase_iff]; exact fun ⟨p, q⟩ => ⟨q, p⟩
    · rw [upd_ne _ _ hj]; intro hy; refine ⟨hy, ?_⟩
      rintro rfl; exact hj (h.excl _ _ _ hy hx)
  constructor <;> try dsimp only
  · exact h.cur.move a .idle _ _ h0 (by simp)
  · exact h.nk
  · exact h.nq
  · exact h.lt
  · intro b j; rw [upd_apply]; split
    · simp [Pc.qs]
    · exact h.snap b j
  · intro j y hy; exact h.cont j y (hmem j y hy).1
  · intro t; rw [h.reg t]; simp [Registered]
  · intro j; by_cases hj : j = i
    · subst hj; rw [upd_same]; exact (h.nd j).erase _
    · rw [upd_ne _ _ hj]; exact h.nd j
  · intro j k y hj hk; exact h.excl _ _ _ (hmem _ _ hj).1 (hmem _ _ hk).1
  · intro y; rw [← h.enq y]; simp [timesEnqueued]
  · intro j y hy
    have h1 := h.inq j y (hmem j y hy).1
    have h2 := (hmem j y hy).2
    refine ⟨?_, h1.2⟩
    simp [h1.1]; simp [timesGot, Ne.symm h2]
  · intro y hy
    by_cases hyx : y = x
    · subst hyx; have := h.enq y; simp [hx0.2] at this
      simp [hx0.1, this]; simp [timesGot, timesEnqueued]
    · have : ∀ j, y ∉ s.content j := by
        intro j hj; apply hy j
        by_cases hji : j = i
        · subst hji; rw [upd_same, (h.nd j).mem_erase_iff]; exact ⟨hyx, hj⟩
        · rw [upd_ne _ _ hji]; exact hj
      have := h.out y this
      simp [this]; simp [timesGot, timesEnqueued, Ne.symm hyx]
  · have := total_erase (c := s.content) h.nq him hx
    have h2 := h.size
    simp only [aG_append, aE_append]
    simp [allGot, allEnqueued] at *
    omega

theorem Inv.push {s : St} {tr : List Ev} {m : Map} (h : Inv s tr m) (a i : Nat)
    (h0 : ∀ t m', s.pc a ≠ .addStore t m') (hi : i ∈ (s.pc a).qs) :
    Inv { s with content := upd s.content i (s.content i ++ [s.next]), next := s.next + 1,
                 pc := upd s.pc a .idle } (tr ++ [.enqueued a s.next]) m := by
  have him := h.snap a i hi
  have hfresh : ∀ j, s.next ∉ s.content j := fun j hj => by have := (h.inq j _ hj).2; omega
  have hmem : ∀ j y, y ∈ upd s.content i (s.content i ++ [s.next]) j →
      (y ∈ s.content j ∧ y ≠ s.next) ∨ (j = i ∧ y = s.next) := by
    intro j y
    by_cases hj : j = i
    · subst hj; rw [upd_same]; simp only [List.mem_append, List.mem_singleton]
      rintro (hy | hy)
      · left; refine ⟨hy, ?_⟩; rintro rfl; exact hfresh _ hy
      · right; simp [hy]
    · rw [upd_ne _ _ hj]; intro hy; left; refine ⟨hy, ?_⟩; rintro rfl; exact hfresh _ hy
  constructor <;> try dsimp only
  · exact h.cur.move a .idle _ _ h0 (by simp)
  · exact h.nk
  · exact h.nq
  · exact h.lt
  · intro b j; rw [upd_apply]; split
    · simp [Pc.qs]
    · exact h.snap b j
  · intro j y hy
    rcases hmem j y hy with hy | ⟨rfl, _⟩
    · exact h.cont j y hy.1
    · exact him
  · intro t; rw [h.reg t]; simp [Registered]
  · intro j; by_cases hj : j = i
    · subst hj; rw [upd_same, List.nodup_append]
      refine ⟨h.nd j, by simp, ?_⟩
      intro y hy z hz; simp at hz; subst hz; rintro rfl; exact hfresh _ hy
    · rw [upd_ne _ _ hj]; exact h.nd j
  · intro j k y hj hk
    rcases hmem j y hj with h1 | ⟨h1, h1'⟩ <;> rcases hmem k y hk with h2 | ⟨h2, h2'⟩
    · exact h.excl _ _ _ h1.1 h2.1
    · exact absurd h2' h1.2
    · exact absurd h1' h2.2
    · rw [h1, h2]
  · intro y
    have := h.enq y
    simp only [tE_append, this]
    by_cases hy : y = s.next
    · subst hy; simp [timesEnqueued]
    · have h1 : timesEnqueued y [.enqueued a s.next] = 0 := by simp [timesEnqueued, Ne.symm hy]
      rw [h1]; split <;> split <;> omega
  · intro j y hy
    have h3 : timesGot y [Ev.enqueued a s.next] = 0 := by simp [timesGot]
    rcases hmem j y hy with h1 | ⟨_, rfl⟩
    · have := h.inq j y h1.1; simp only [tG_append, h3]; omega
    · have := h.out s.next hfresh
      have h2 := h.enq s.next
      simp at h2
      simp only [tG_append, h3]; omega
  · intro y hy
    have hyn : y ≠ s.next := by
      rintro rfl; apply hy i; rw [upd_same]; simp
    have : ∀ j, y ∉ s.content j := by
      intro j hj; apply hy j
      by_cases hji : j = i
      · subst hji; rw [upd_same]; simp [hj]
      · rw [upd_ne _ _ hji]; exact hj
    have := h.out y this
    simp [this]; simp [timesGot, timesEnqueued, Ne.symm hyn]
  · have := total_push (c := s.content) s.next h.nq him
    have h2 := h.size
    simp only [aG_append, aE_append]
    simp [allGot, allEnqueued] at *
    omega

theorem Inv.loadAdd {s : St} {tr : List Ev} {m : Map} (h : Inv s tr m) (a tid : Nat) (m' : Map)
    (hp : s.pub = some m') :
    Inv { s with pub := none, pc := upd s.pc a (.addStore tid m') } (tr ++ []) m := by
  have hm : m' = m := by
    rcases h.cur with ⟨h1, _⟩ | ⟨h1, _⟩ <;> simp_all
  subst hm
  have hn : ∀ a t m'', s.pc a ≠ .addStore t m'' := by
    rcases h.cur with ⟨_, h1⟩ | ⟨h1, _⟩
    · exact h1
    · simp_all
  rw [List.append_nil]
  refine { h with cur := ?_, snap := ?_ }
  · right
    refine ⟨rfl, a, tid, by simp, ?_⟩
    intro b t' m''; dsimp only; rw [upd_apply]; split
    · intro _; assumption
    · intro hb; exact absurd hb (hn _ _ _)
  · intro b i; dsimp only; rw [upd_apply]; split
    · simp [Pc.qs]
    · exact h.snap b i

theorem Inv.store {s : St} {tr : List Ev} {m m' : Map} (h : Inv s tr m) (a tid : Nat)
    (hp : s.pc a = .addStore tid m') :
    m' = m ∧ Inv { s with pub := some (addKey m' tid s.nextQ), nextQ := s.nextQ + 1, pc := upd s.pc a .idle }
      (tr ++ [.added a tid]) (addKey m' tid s.nextQ) := by
  have hc : m' = m ∧ ∀ b t' m'', s.pc b = .addStore t' m'' → b = a := by
    rcases h.cur with ⟨_, h1⟩ | ⟨_, b, t, hb, hu⟩
    · exact absurd hp (h1 _ _ _)
    · have := hu a _ _ hp; subst this
      rw [hp] at hb; simp at hb
      exact ⟨hb.2, hu⟩
  obtain ⟨rfl, hu⟩ := hc
  refine ⟨rfl, ?_⟩
  have hsub : ∀ i ∈ qids m', i ∈ qids (addKey m' tid s.nextQ) := by
    intro i hi; unfold addKey; split
    · exact hi
    · simp only [qids, List.map_cons, List.mem_cons]; right; exact hi
  have hnew : s.nextQ ∉ qids m' := fun hh => absurd (h.lt _ hh) (by omega)
  have hcn : s.content s.nextQ = [] := by
    cases hq : s.content s.nextQ with
    | nil => rfl
    | cons x l => exact absurd (h.cont s.nextQ x (by simp [hq])) hnew
  constructor <;> try dsimp only
  · left; refine ⟨rfl, ?_⟩
    intro b t m''; dsimp only; rw [upd_apply]; split
    · simp
    · intro hb; exact absurd (hu _ _ _ hb) ‹_›
  · unfold addKey; split
    · exact h.nk
    · simp only [keys, List.map_cons, List.nodup_cons]; exact ⟨by assumption, h.nk⟩
  · unfold addKey; split
    · exact h.nq
    · simp only [qids, List.map_cons, List.nodup_cons]; exact ⟨hnew, h.nq⟩
  · intro i hi
    unfold addKey at hi; split at hi
    · have := h.lt i hi; omega
    · simp only [qids, List.map_cons, List.mem_cons] at hi
      rcases hi with rfl | hi
      · omega
      · have := h.lt i hi; omega
  · intro b i; rw [upd_apply]; split
    · simp [Pc.qs]
    · intro hi; exact hsub i (h.snap b i hi)
  · intro i x hx; exact hsub i (h.cont i x hx)
  · intro t
    have hk : t ∈ keys (addKey m' tid s.nextQ) ↔ t = tid ∨ t ∈ keys m' := by
      unfold addKey; split
      · constructor
        · exact Or.inr
        · rintro (rfl | h); assumption; exact h
      · simp [keys]
    rw [hk, h.reg t]
    unfold Registered
    simp only [List.mem_append, List.mem_singleton, Ev.added.injEq]
    constructor
    · rintro (rfl | ⟨b, hb⟩)
      · exact ⟨a, Or.inr ⟨rfl, rfl⟩⟩
      · exact ⟨b, Or.inl hb⟩
    · rintro ⟨b, hb | ⟨_, rfl⟩⟩
      · exact Or.inr ⟨b, hb⟩
      · exact Or.inl rfl
  · exact h.nd
  · exact h.excl
  · intro x; rw [← h.enq x]; simp [timesEnqueued]
  · intro i x hx; have := h.inq i x hx; simp [this]; simp [timesGot]
  · intro x hx; have := h.out x hx; simp [this]; simp [timesGot, timesEnqueued]
  · have := h.size
    have ht : total s.content (addKey m' tid s.nextQ) = total s.content m' := by
      unfold addKey; split
      · rfl
      · simp [total, qids, hcn]
    rw [ht]; simp only [aG_append, aE_append]; simp [allGot, allEnqueued] at *; omega

theorem qs_afterLoad (m : Map) (o : Op) : ∀ i ∈ (afterLoad m o).qs, i ∈ qids m := by
  cases o <;> simp [afterLoad, Pc.qs]

/-- Every step preserves the invariant, and the current map only grows. -/
theorem inv_step {spur : Bool} {s s' : St} {tr e : List Ev} {l : Lbl} {m : Map} (h : Inv s tr m)
    (hs : step spur s l = some (s', e)) : ∃ m', Inv s' (tr ++ e) m' ∧ m ⊆ m' := by
  have keep : ∀ {P : Prop} , (P → P) := fun x => x
  cases l with
  | call a o =>
    simp only [step] at hs
    split at hs
    · rename_i hpc
      simp only [Option.some.injEq, Prod.mk.injEq] at hs; obtain ⟨rfl, rfl⟩ := hs
      exact ⟨m, h.move a _ _ (by simp [hpc]) (by simp) (by simp [Pc.qs]) (by simp), fun _ => id⟩
    · simp at hs
  | load a =>
    simp only [step] at hs
    split at hs
    · rename_i o m' hpc hpub
      simp only [Option.some.injEq, Prod.mk.injEq] at hs; obtain ⟨rfl, rfl⟩ := hs
      have hm : m' = m := by
        rcases h.cur with ⟨h1, _⟩ | ⟨h1, _⟩ <;> simp_all
      cases o with
      | add tid => exact ⟨m, h.loadAdd a tid m' hpub, fun _ => id⟩
      | enq tid =>
        subst hm
        have := h.move a (afterLoad m' (.enq tid)) [] (by simp [hpc]) (by simp [afterLoad]) (qs_afterLoad _ _) (by simp)
        exact ⟨m', by simpa [pubAfterLoad, hpub] using this, fun _ => id⟩
      | deq tid =>
        subst hm
        have := h.move a (afterLoad m' (.deq tid)) [] (by simp [hpc]) (by simp [afterLoad]) (qs_afterLoad _ _) (by simp)
        exact ⟨m', by simpa [pubAfterLoad, hpub] using this, fun _ => id⟩
      | size =>
        subst hm
        have := h.move a (afterLoad m' .size) [] (by simp [hpc]) (by simp [afterLoad]) (qs_afterLoad _ _) (by simp)
        exact ⟨m', by simpa [pubAfterLoad, hpub] using this, fun _ => id⟩
    · simp at hs
  | store a =>
    simp only [step] at hs
    split at hs
    · rename_i tid m' hpc
      simp only [Option.some.injEq, Prod.mk.injEq] at hs; obtain ⟨rfl, rfl⟩ := hs
      obtain ⟨rfl, h2⟩ := h.store a tid hpc
      refine ⟨_, h2, ?_⟩
      unfold addKey; split
      · exact fun _ => id
      · intro p hp; simp [hp]
    · simp at hs
  | push a i =>
    simp only [step] at hs
    split at hs
    · rename_i tid m' hpc
      split at hs
      · rename_i hc
        simp only [Option.some.injEq, Prod.mk.injEq] at hs; obtain ⟨rfl, rfl⟩ := hs
        refine ⟨m, h.push a i (by simp [hpc]) ?_, fun _ => id⟩
        rw [hpc]; rcases hc with hc | hc
        · exact mem_qids hc
        · exact hc.2
      · simp at hs
    · simp at hs
  | take a i x =>
    simp only [step] at hs
    split at hs
    · rename_i tid m' hpc
      split at hs
      · rename_i hc
        simp only [Option.some.injEq, Prod.mk.injEq] at hs; obtain ⟨rfl, rfl⟩ := hs
        exact ⟨m, h.take a i x (by simp [hpc]) (by rw [hpc]; exact mem_qids hc.1) hc.2, fun _ => id⟩
      · simp at hs
    · rename_i rest hpc
      split at hs
      · rename_i hc
        simp only [Option.some.injEq, Prod.mk.injEq] at hs; obtain ⟨rfl, rfl⟩ := hs
        exact ⟨m, h.take a i x (by simp [hpc]) (by rw [hpc]; exact hc.1) hc.2, fun _ => id⟩
      · simp at hs
    · simp at hs
  | miss a i =>
    simp only [step] at hs
    split at hs
    · rename_i tid m' hpc
      split at hs
      · simp only [Option.some.injEq, Prod.mk.injEq] at hs; obtain ⟨rfl, rfl⟩ := hs
        refine ⟨m, h.move a _ _ (by simp [hpc]) (by simp) ?_ (by simp), fun _ => id⟩
        intro i hi; exact h.snap a i (by rw [hpc]; exact hi)
      · simp at hs
    · rename_i rest hpc
      split at hs
      · simp only [Option.some.injEq, Prod.mk.injEq] at hs; obtain ⟨rfl, rfl⟩ := hs
        refine ⟨m, h.move a _ _ (by simp [hpc]) (by simp) ?_ (by simp), fun _ => id⟩
        intro i hi; exact h.snap a i (by rw [hpc]; exact List.mem_of_mem_erase hi)
      · simp at hs
    · simp at hs
  | count a i =>
    simp only [step] at hs
    split at hs
    · rename_i rest acc hpc
      split at hs
      · simp only [Option.some.injEq, Prod.mk.injEq] at hs; obtain ⟨rfl, rfl⟩ := hs
        refine ⟨m, h.move a _ _ (by simp [hpc]) (by simp) ?_ (by simp), fun _ => id⟩
        intro i hi; exact h.snap a i (by rw [hpc]; exact List.mem_of_mem_erase hi)
      · simp at hs
    · simp at hs
  | finish a =>
    simp only [step] at hs
    split at hs
    · rename_i hpc
      simp only [Option.some.injEq, Prod.mk.injEq] at hs; obtain ⟨rfl, rfl⟩ := hs
      exact ⟨m, h.move a _ _ (by simp [hpc]) (by simp) (by simp [Pc.qs]) (by simp), fun _ => id⟩
    · rename_i acc hpc
      simp only [Option.some.injEq, Prod.mk.injEq] at hs; obtain ⟨rfl, rfl⟩ := hs
      exact ⟨m, h.move a _ _ (by simp [hpc]) (by simp) (by simp [Pc.qs]) (by simp), fun _ => id⟩
    · simp at hs
  | crash a =>
    simp only [step] at hs
    split at hs
    · rename_i hpc
      split at hs
      · simp only [Option.some.injEq, Prod.mk.injEq] at hs; obtain ⟨rfl, rfl⟩ := hs
        exact ⟨m, h.move a _ _ (by simp [hpc]) (by simp) (by simp [Pc.qs]) (by simp), fun _ => id⟩
      · simp at hs
    · rename_i hpc
      split at hs
      · simp only [Option.some.injEq, Prod.mk.injEq] at hs; obtain ⟨rfl, rfl⟩ := hs
        exact ⟨m, h.move a _ _ (by simp [hpc]) (by simp) (by simp [Pc.qs]) (by simp), fun _ => id⟩
      · simp at hs
    · simp at hs

theorem inv_of_reaches {spur : Bool} {s : St} {tr : List Ev} (h : (machine spur).Reaches s tr) :
    ∃ m, Inv s tr m :=
  Machine.Reaches.inv (M := machine spur) (fun s tr => ∃ m, Inv s tr m) ⟨[], inv_init⟩
    (fun _ _ _ _ _ ⟨_, hm⟩ hs => let ⟨m', h, _⟩ := inv_step hm hs; ⟨m', h⟩) h

end Verif.WSQ
