import Verif.Locks.Model
import Mathlib.Data.List.Infix
/-!
# Calls of the library do not dead-lock each other (C100)
-/

namespace Verif.Locks

/-- the order of the locks: a thread that holds a lock asks only for lower ones -/
def rank (h : Nat → Nat) : Lock → Nat × Nat
  | .pool => (9, 0)
  | .user => (8, 0)
  | .ptrs => (7, 0)
  | .impl _ => (6, 0)
  | .ring _ => (6, 0)
  | .pollers _ => (5, 0)
  | .gen g => (4, h g)
  | .once _ => (3, 0)
  | .monitor => (2, 0)
  | .shr _ => (1, 0)
  | .fut _ => (1, 0)
  | .queue _ => (0, 0)

def lt (a b : Nat × Nat) : Prop := a.1 < b.1 ∨ (a.1 = b.1 ∧ a.2 < b.2)

def le (a b : Nat × Nat) : Prop := a.1 < b.1 ∨ (a.1 = b.1 ∧ a.2 ≤ b.2)

theorem lt_wf : WellFounded lt := by
  have := (Prod.lex Nat.lt_wfRel Nat.lt_wfRel).wf
  refine Subrelation.wf ?_ this
  intro a b hab
  rcases a with ⟨a1, a2⟩
  rcases b with ⟨b1, b2⟩
  rcases hab with hab | ⟨h1, h2⟩
  · exact Prod.Lex.left _ _ hab
  · simp only at h1 h2
    subst h1
    exact Prod.Lex.right _ h2

theorem lt_of_lt_le {a b c : Nat × Nat} (h1 : lt a b) (h2 : le b c) : lt a c := by
  simp only [lt, le] at *; omega

theorem le_of_lt {a b : Nat × Nat} (h1 : lt a b) : le a b := by
  simp only [lt, le] at *; omega

theorem le_refl (a : Nat × Nat) : le a a := by simp [le]

theorem le_trans {a b c : Nat × Nat} (h1 : le a b) (h2 : le b c) : le a c := by
  simp only [le] at *; omega

theorem lt_irrefl (a : Nat × Nat) : ¬ lt a a := by simp [lt]

/-- a thread that holds the locks `H` (latest first) and has still to do the rest keeps to the order, and waits for tasks without locks only -/
def Ordered (h : Nat → Nat) : List Lock → List Instr → Prop
  | H, [] => H = []
  | H, .acq l _ :: p => (∀ x ∈ H, lt (rank h l) (rank h x)) ∧ Ordered h (l :: H) p
  | H, .rel l :: p => ∃ H', H = l :: H' ∧ Ordered h H' p
  | H, .wait _ :: p => H = [] ∧ Ordered h H p
  | H, .ends _ :: p => Ordered h H p

/-- a piece of code that takes only locks below `b` and gives them back, and does not wait for a task -/
structure Bal (h : Nat → Nat) (b : Nat × Nat) (body : List Instr) : Prop where
  ord : ∀ H p, (∀ x ∈ H, le b (rank h x)) → Ordered h H p → Ordered h H (body ++ p)
  nw : ∀ k, Instr.wait k ∉ body

theorem Bal.nil {h : Nat → Nat} {b : Nat × Nat} : Bal h b [] :=
  ⟨fun H p _ ho => by simpa using ho, by simp⟩

theorem Bal.append {h : Nat → Nat} {b : Nat × Nat} {x y : List Instr} (hx : Bal h b x) (hy : Bal h b y) : Bal h b (x ++ y) := by
  refine ⟨fun H p hH ho => ?_, fun k hm => ?_⟩
  · rw [List.append_assoc]
    exact hx.ord H _ hH (hy.ord H p hH ho)
  · rcases List.mem_append.1 hm with hm | hm
    · exact hx.nw k hm
    · exact hy.nw k hm

theorem Bal.mono {h : Nat → Nat} {b b' : Nat × Nat} {x : List Instr} (hb : le b b') (hx : Bal h b x) : Bal h b' x :=
  ⟨fun H p hH ho => hx.ord H p (fun y hy => le_trans hb (hH y hy)) ho, hx.nw⟩

theorem Bal.crit {h : Nat → Nat} {b : Nat × Nat} {l : Lock} {e : Bool} {body : List Instr} (hl : lt (rank h l) b) (hb : Bal h (rank h l) body) :
    Bal h b (crit l e body) := by
  refine ⟨fun H p hH ho => ?_, fun k hm => ?_⟩
  · simp only [Locks.crit, List.cons_append, List.append_assoc, List.nil_append]
    refine ⟨fun x hx => lt_of_lt_le hl (hH x hx), ?_⟩
    refine hb.ord (l :: H) _ ?_ ⟨H, rfl, ho⟩
    intro x hx
    rcases List.mem_cons.1 hx with rfl | hx
    · exact le_refl _
    · exact le_of_lt (lt_of_lt_le hl (hH x hx))
  · simp only [Locks.crit, List.mem_cons, List.mem_append, List.not_mem_nil, or_false, reduceCtorEq, false_or] at hm
    exact hb.nw k hm

theorem Bal.flatMap {α : Type} {h : Nat → Nat} {b : Nat × Nat} {f : α → List Instr} (hf : ∀ a, Bal h b (f a)) (xs : List α) : Bal h b (xs.flatMap f) := by
  induction xs with
  | nil => exact Bal.nil
  | cons a xs ih => simpa using (hf a).append ih

theorem bal_queue {h : Nat → Nat} {b : Nat × Nat} (hb : 0 < b.1) (q : Nat) : Bal h b (onQueue q) :=
  Bal.crit (e := true) (body := []) (by simp only [lt, rank]; omega) Bal.nil

mutual
theorem quiet_bal (h : Nat → Nat) (bd : Nat → Prop) (b : Nat × Nat) (hb : 3 < b.1) (hbd : ∀ n, bd n → lt (4, n) b) :
    ∀ o : Op, o.quiet h bd → Bal h b (opCode o)
  | .genDestroy g locals, hq => by
    rw [Op.quiet.eq_def] at hq
    rw [opCode.eq_def]
    refine Bal.crit (hbd _ hq.1) ?_
    refine quiets_bal h (· < h g) _ (by simp [rank]) ?_ locals hq.2
    intro n hn
    exact Or.inr ⟨rfl, hn⟩
  | .genUse g, hq => by
    rw [Op.quiet.eq_def] at hq
    rw [opCode.eq_def]
    exact Bal.crit (hbd _ hq) Bal.nil
  | .sleep _, hq => by rw [Op.quiet.eq_def] at hq; exact hq.elim
  | .uring _, hq => by rw [Op.quiet.eq_def] at hq; exact hq.elim
  | .dirAcquire _ _, hq => by rw [Op.quiet.eq_def] at hq; exact hq.elim
  | .addLoop _, hq => by rw [Op.quiet.eq_def] at hq; exact hq.elim
  | .awaitTask _, hq => by rw [Op.quiet.eq_def] at hq; exact hq.elim
  | .enqueue q, _ => by rw [opCode.eq_def]; exact bal_queue (by omega) q
  | .setResult f w, _ => by
    rw [opCode.eq_def]
    exact Bal.crit (by simp only [lt, rank]; omega) (Bal.flatMap (fun a => bal_queue (by simp [rank]) a) _)
  | .await f w, _ => by
    rw [opCode.eq_def]
    exact Bal.crit (by simp only [lt, rank]; omega) (Bal.flatMap (fun a => bal_queue (by simp [rank]) a) _)
  | .take f, _ => by rw [opCode.eq_def]; exact Bal.crit (by simp only [lt, rank]; omega) Bal.nil
  | .shared m w, _ => by
    rw [opCode.eq_def]
    exact Bal.crit (by simp only [lt, rank]; omega) (Bal.flatMap (fun a => bal_queue (by simp [rank]) a) _)
  | .firstAcquire m, _ => by
    rw [opCode.eq_def]
    exact Bal.crit (by simp only [lt, rank]; omega) (Bal.crit (by simp [lt, rank]) Bal.nil)
  | .destroyMutex, _ => by rw [opCode.eq_def]; exact Bal.crit (by simp only [lt, rank]; omega) Bal.nil

theorem quiets_bal (h : Nat → Nat) (bd : Nat → Prop) (b : Nat × Nat) (hb : 3 < b.1) (hbd : ∀ n, bd n → lt (4, n) b) :
    ∀ os : List Op, Op.quiets h bd os → Bal h b (opCodes os)
  | [], _ => by rw [opCodes.eq_def]; exact Bal.nil
  | o :: os, hq => by
    rw [Op.quiets.eq_def] at hq
    rw [opCodes.eq_def]
    exact (quiet_bal h bd b hb hbd o hq.1).append (quiets_bal h bd b hb hbd os hq.2)
end

theorem loop_bal (h : Nat → Nat) (o : Op) (hq : o.inLoop h) : Bal h (8, 0) (opCode o) := by
  have hgen : ∀ g locals, Op.quiets h (· < h g) locals → Bal h (rank h (.gen g)) (opCodes locals) := by
    intro g locals hq
    exact quiets_bal h (· < h g) _ (by simp [rank]) (fun n hn => Or.inr ⟨rfl, hn⟩) locals hq
  cases o <;> simp only [Op.inLoop] at hq <;> rw [opCode.eq_def] <;> simp only
  case enqueue q => exact bal_queue (by simp) q
  case setResult f w => exact Bal.crit (by simp [lt, rank]) (Bal.flatMap (fun a => bal_queue (by simp [rank]) a) _)
  case await f w => exact Bal.crit (by simp [lt, rank]) (Bal.flatMap (fun a => bal_queue (by simp [rank]) a) _)
  case take f => exact Bal.crit (by simp [lt, rank]) Bal.nil
  case shared m w => exact Bal.crit (by simp [lt, rank]) (Bal.flatMap (fun a => bal_queue (by simp [rank]) a) _)
  case firstAcquire m => exact Bal.crit (by simp [lt, rank]) (Bal.crit (by simp [lt, rank]) Bal.nil)
  case destroyMutex => exact Bal.crit (by simp [lt, rank]) Bal.nil
  case sleep w => exact Bal.crit (by simp [lt, rank]) (Bal.crit (by simp [lt, rank]) Bal.nil)
  case uring w => exact Bal.crit (by simp [lt, rank]) Bal.nil
  case dirAcquire d q => exact Bal.crit (by simp [lt, rank]) (bal_queue (by simp [rank]) q)
  case genUse g => exact Bal.crit (by simp [lt, rank]) Bal.nil
  case genDestroy g locals => exact Bal.crit (by simp [lt, rank]) (hgen g locals hq)

theorem loops_bal (h : Nat → Nat) (os : List Op) (hq : ∀ o ∈ os, o.inLoop h) : Bal h (8, 0) (opCodes os) := by
  induction os with
  | nil => rw [opCodes.eq_def]; exact Bal.nil
  | cons o os ih =>
    rw [opCodes.eq_def]
    exact (loop_bal h o (hq o (by simp))).append (ih fun x hx => hq x (by simp [hx]))

theorem poll_bal (h : Nat → Nat) (w : Nat) (timers : Option (List Nat)) (compl : List Nat) (user : List Op) (hq : ∀ o ∈ user, o.inLoop h) :
    Bal h (10, 0) (pollCode w timers compl user) := by
  refine ((Bal.crit (by simp [lt, rank]) ((Bal.crit (by simp [lt, rank]) Bal.nil).append ?_)).append
    (Bal.crit (by simp [lt, rank]) (Bal.flatMap (fun a => bal_queue (by simp [rank]) a) _))).append (Bal.crit (by simp [lt, rank]) (loops_bal h user hq))
  cases timers with
  | none => exact Bal.nil
  | some qs => exact Bal.crit (by simp [lt, rank]) (Bal.flatMap (fun a => bal_queue (by simp [rank]) a) _)

theorem status_bal (h : Nat → Nat) (w : Nat) (ws : List Nat) (user : List Op) (hq : ∀ o ∈ user, o.inLoop h) :
    Bal h (9, 0) (statusCode w ws user) :=
  (((Bal.crit (by simp [lt, rank]) (Bal.flatMap (fun a => Bal.crit (by simp [lt, rank]) Bal.nil) _)).append
    (Bal.crit (by simp [lt, rank]) Bal.nil)).append (Bal.crit (by simp [lt, rank]) (loops_bal h user hq))).append (Bal.crit (by simp [lt, rank]) Bal.nil)

/-- every call keeps to the order, and waits for a task only if it is meant to -/
theorem call_ordered (h : Nat → Nat) (c : Call) (hc : c.Fine h) :
    Ordered h [] (callCode c) ∧ ∀ k, Instr.wait k ∈ callCode c → c = .op (.awaitTask k) := by
  have fin : ∀ body (P : Nat → Prop), Bal h (10, 0) body → Ordered h [] body ∧ ∀ k, Instr.wait k ∈ body → P k := by
    intro body P hb
    have := hb.ord [] [] (by simp) rfl
    exact ⟨by simpa using this, fun k hm => absurd hm (hb.nw k)⟩
  have up : ∀ body, Bal h (8, 0) body → Bal h (10, 0) body := fun body hb => hb.mono (by simp [le])
  cases c with
  | op o =>
    cases o
    case awaitTask k => simp [callCode, opCode, Ordered]
    case addLoop prep =>
      simp only [callCode]
      rw [opCode.eq_def]
      exact fin _ _ (Bal.crit (by simp [lt, rank]) (loops_bal h prep hc))
    all_goals exact fin _ _ (up _ (loop_bal h _ (by first | exact hc | exact trivial)))
  | workerStart w q prep =>
    exact fin _ _ ((((bal_queue (by simp) q).append (Bal.crit (by simp [lt, rank]) Bal.nil)).append (Bal.crit (by simp [lt, rank]) Bal.nil)).append
      (Bal.crit (by simp [lt, rank]) (loops_bal h prep hc)))
  | work w timers compl user qs ends =>
    simp only [callCode]
    have hB := (poll_bal h w timers compl user hc).append (Bal.flatMap (fun a => bal_queue (by simp) a) qs)
    refine ⟨hB.ord [] _ (by simp) ?_, ?_⟩
    · cases ends <;> simp [Ordered]
    · intro k hm
      rcases List.mem_append.1 hm with hm | hm
      · exact absurd hm (hB.nw k)
      · simp at hm
  | rest w timers compl user qs sleep status =>
    refine fin _ _ (((poll_bal h w timers compl user hc.1).append (Bal.flatMap (fun a => bal_queue (by simp) a) _)).append
      (Bal.crit (by simp [lt, rank]) ((((Bal.crit (by simp [lt, rank]) (Bal.crit (by simp [lt, rank]) Bal.nil)).append
        (Bal.crit (by simp [lt, rank]) Bal.nil)).append (Bal.crit (by simp [lt, rank]) (loops_bal h sleep hc.2.1))).append ?_)) |>.append (Bal.crit (by simp [lt, rank]) Bal.nil))
    cases status with
    | none => exact Bal.nil
    | some st => exact status_bal h w st.1 st.2 (hc.2.2 st rfl)
  | stopLoops user => exact fin _ _ (Bal.crit (by simp [lt, rank]) (loops_bal h user hc))
  | dropTimers locals =>
    exact fin _ _ (Bal.crit (by simp [lt, rank]) (quiets_bal h _ _ (by simp [rank]) (fun n _ => by simp [lt, rank]) locals hc))

theorem code_ne_nil (c : Call) : callCode c ≠ [] := by
  cases c with
  | op o => cases o <;> simp [callCode, opCode, crit, onQueue]
  | workerStart w q prep => simp [callCode, onQueue]
  | work w timers compl user qs ends => simp [callCode, pollCode, crit]
  | rest w timers compl user qs sleep status => simp [callCode, pollCode, crit]
  | stopLoops user => simp [callCode, crit]
  | dropTimers locals => simp [callCode, crit]

/-- the locks of the threads, and what they have still to do -/
structure Inv (h : Nat → Nat) (H : Nat → List Lock) (s : St) (tr : List Ev) : Prop where
  ord : ∀ t, Ordered h (H t) (s.prog t)
  chain : ∀ t, (H t).Pairwise fun a b => lt (rank h a) (rank h b)
  own : ∀ l t, s.writer l = some t → l ∈ H t
  own2 : ∀ l t, t ∈ s.readers l → l ∈ H t
  nodup : ∀ l, (s.readers l).Nodup
  excl : ∀ l, s.writer l ≠ none → s.readers l = []
  cur : ∀ t c, OpenIn (.called t c) (.returned t) tr → s.prog t ≠ [] ∧ s.prog t <:+ callCode c
  busy : ∀ t, s.prog t ≠ [] → ∃ c, OpenIn (.called t c) (.returned t) tr

theorem inv_init (h : Nat → Nat) : Inv h (fun _ => []) init [] := by
  constructor <;> simp [init, Ordered, not_openIn_nil]

theorem ordered_nil {h : Nat → Nat} {H : List Lock} {p : List Instr} (ho : Ordered h H p) (hp : p = []) : H = [] := by
  subst hp; exact ho

/-- a step of a call -/
theorem cur_go {s : St} {tr : List Ev} {t : Nat} {i : Instr} {p : List Instr} {e : List Ev}
    (hc : ∀ t c, OpenIn (.called t c) (.returned t) tr → s.prog t ≠ [] ∧ s.prog t <:+ callCode c)
    (hb : ∀ t, s.prog t ≠ [] → ∃ c, OpenIn (.called t c) (.returned t) tr) (hp : s.prog t = i :: p) (he : e = ret t p) :
    (∀ u c, OpenIn (.called u c) (.returned u) (tr ++ e) → upd s.prog t p u ≠ [] ∧ upd s.prog t p u <:+ callCode c) ∧
    (∀ u, upd s.prog t p u ≠ [] → ∃ c, OpenIn (.called u c) (.returned u) (tr ++ e)) := by
  subst he
  by_cases hn : p = []
  · subst hn
    simp only [ret, List.isEmpty_nil, if_true]
    refine ⟨?_, ?_⟩
    · intro u c ho
      rw [openIn_concat] at ho
      rcases ho with ho | ⟨h1, ho⟩
      · cases ho
      · by_cases hu : u = t
        · subst hu; exact absurd rfl h1
        · rw [upd_ne _ _ hu]; exact hc u c ho
    · intro u hu
      by_cases h1 : u = t
      · subst h1; simp at hu
      · rw [upd_ne _ _ h1] at hu
        obtain ⟨c, ho⟩ := hb u hu
        refine ⟨c, ?_⟩
        rw [openIn_concat]
        exact Or.inr ⟨by simpa using fun e => h1 e.symm, ho⟩
  · have : ret t p = [] := by cases p with
      | nil => exact absurd rfl hn
      | cons => rfl
    rw [this, List.append_nil]
    refine ⟨?_, ?_⟩
    · intro u c ho
      by_cases hu : u = t
      · subst hu
        rw [upd_same]
        have := (hc u c ho).2
        rw [hp] at this
        exact ⟨hn, (List.suffix_cons _ _).trans this⟩
      · rw [upd_ne _ _ hu]; exact hc u c ho
    · intro u hu
      by_cases h1 : u = t
      · subst h1
        exact hb u (by rw [hp]; simp)
      · rw [upd_ne _ _ h1] at hu; exact hb u hu

theorem inv_step (h : Nat → Nat) (H : Nat → List Lock) (s : St) (tr : List Ev) (l : Lbl) (s' : St) (e : List Ev) (hI : Inv h H s tr)
    (hs : step s l = some (s', e)) (hf : ∀ t c, Ev.called t c ∈ e → c.Fine h) : ∃ H', Inv h H' s' (tr ++ e) := by
  cases l with
  | call t c =>
    simp only [step] at hs
    split at hs
    · rename_i hidle
      simp only [Option.some.injEq, Prod.mk.injEq] at hs
      obtain ⟨rfl, rfl⟩ := hs
      have hidle' : s.prog t = [] := by simpa using hidle
      have hH : H t = [] := ordered_nil (hI.ord t) hidle'
      refine ⟨H, ?_, hI.chain, hI.own, hI.own2, hI.nodup, hI.excl, ?_, ?_⟩
      · intro u
        by_cases hu : u = t
        · subst hu; simp only [upd_same]; rw [hH]; exact (call_ordered h c (hf u c (by simp))).1
        · simp only [upd_ne _ _ hu]; exact hI.ord u
      · intro u c' ho
        rw [openIn_concat] at ho
        rcases ho with ho | ⟨_, ho⟩
        · cases ho
          simp only [upd_same]
          exact ⟨code_ne_nil c, List.suffix_refl _⟩
        · by_cases hu : u = t
          · subst hu; exact absurd hidle' (hI.cur u c' ho).1
          · simp only [upd_ne _ _ hu]; exact hI.cur u c' ho
      · intro u hu
        by_cases h1 : u = t
        · subst h1
          exact ⟨c, by rw [openIn_concat]; exact Or.inl rfl⟩
        · simp only [upd_ne _ _ h1] at hu
          obtain ⟨c', ho⟩ := hI.busy u hu
          exact ⟨c', by rw [openIn_concat]; exact Or.inr ⟨by simp, ho⟩⟩
    · cases hs
  | go t =>
    simp only [step] at hs
    have ho := hI.ord t
    have hch := hI.chain t
    have hup : ∀ (H' : List Lock) (p : List Instr), Ordered h H' p → ∀ u, Ordered h (upd H t H' u) (upd s.prog t p u) := by
      intro H' p hp u
      by_cases hu : u = t
      · subst hu; simpa only [upd_same] using hp
      · simpa only [upd_ne _ _ hu] using hI.ord u
    have hupc : ∀ (H' : List Lock), H'.Pairwise (fun a b => lt (rank h a) (rank h b)) → ∀ u, (upd H t H' u).Pairwise fun a b => lt (rank h a) (rank h b) := by
      intro H' hp u
      by_cases hu : u = t
      · subst hu; simpa only [upd_same] using hp
      · simpa only [upd_ne _ _ hu] using hI.chain u
    split at hs
    · cases hs
    · rename_i l p hp
      rw [hp] at ho
      split at hs
      · rename_i hfree
        simp only [Option.some.injEq, Prod.mk.injEq] at hs
        obtain ⟨rfl, rfl⟩ := hs
        have hcur := cur_go hI.cur hI.busy hp rfl
        refine ⟨upd H t (l :: H t), hup _ _ ho.2, hupc _ (List.pairwise_cons.2 ⟨ho.1, hch⟩), ?_, ?_, hI.nodup, ?_, hcur.1, hcur.2⟩
        · intro l' u hw
          simp only [upd_apply] at hw ⊢
          have := hI.own l' u
          grind
        · intro l' u hw
          have := hI.own2 l' u hw
          simp only [upd_apply]
          grind
        · intro l' hw
          simp only [upd_apply] at hw
          have := hI.excl l'
          grind
      · cases hs
    · rename_i l p hp
      rw [hp] at ho
      split at hs
      · rename_i hfree
        simp only [Option.some.injEq, Prod.mk.injEq] at hs
        obtain ⟨rfl, rfl⟩ := hs
        have hcur := cur_go hI.cur hI.busy hp rfl
        have hnot : t ∉ s.readers l := fun hm => lt_irrefl _ (ho.1 l (hI.own2 l t hm))
        refine ⟨upd H t (l :: H t), hup _ _ ho.2, hupc _ (List.pairwise_cons.2 ⟨ho.1, hch⟩), ?_, ?_, ?_, ?_, hcur.1, hcur.2⟩
        · intro l' u hw
          have := hI.own l' u hw
          simp only [upd_apply]
          grind
        · intro l' u hw
          simp only [upd_apply] at hw ⊢
          have := hI.own2 l' u
          grind
        · intro l'
          simp only [upd_apply]
          split
          · rename_i hl; subst hl; exact List.nodup_cons.2 ⟨hnot, hI.nodup _⟩
          · exact hI.nodup l'
        · intro l' hw
          simp only [upd_apply]
          have := hI.excl l' hw
          grind
      · cases hs
    · rename_i l p hp
      rw [hp] at ho
      obtain ⟨H', hH', ho'⟩ := ho
      rw [hH'] at hch
      have hch' := List.pairwise_cons.1 hch
      have hl : l ∉ H' := fun hm => lt_irrefl _ (hch'.1 l hm)
      have hcur := cur_go hI.cur hI.busy hp rfl
      split at hs
      · rename_i hw
        simp only [Option.some.injEq, Prod.mk.injEq] at hs
        obtain ⟨rfl, rfl⟩ := hs
        have hr := hI.excl l (by simp [hw])
        refine ⟨upd H t H', hup _ _ ho', hupc _ hch'.2, ?_, ?_, hI.nodup, ?_, hcur.1, hcur.2⟩
        · intro l' u hw'
          simp only [upd_apply] at hw' ⊢
          have := hI.own l' u
          grind
        · intro l' u hw'
          have := hI.own2 l' u hw'
          simp only [upd_apply]
          grind
        · intro l' hw'
          simp only [upd_apply] at hw'
          have := hI.excl l'
          grind
      · rename_i hw
        simp only [Option.some.injEq, Prod.mk.injEq] at hs
        obtain ⟨rfl, rfl⟩ := hs
        refine ⟨upd H t H', hup _ _ ho', hupc _ hch'.2, ?_, ?_, ?_, ?_, hcur.1, hcur.2⟩
        · intro l' u hw'
          have := hI.own l' u hw'
          simp only [upd_apply]
          grind
        · intro l' u hw'
          simp only [upd_apply] at hw' ⊢
          have h1 := hI.own2 l' u
          have h2 : t ∉ (s.readers l).erase t := (hI.nodup l).not_mem_erase
          have h3 : ∀ x, x ∈ (s.readers l).erase t → x ∈ s.readers l := fun x hx => List.mem_of_mem_erase hx
          grind
        · intro l'
          simp only [upd_apply]
          split
          · exact (hI.nodup _).erase _
          · exact hI.nodup l'
        · intro l' hw'
          simp only [upd_apply]
          have := hI.excl l' hw'
          split
          · rename_i hl'; subst hl'; rw [this]; rfl
          · exact this
    · rename_i k p hp
      rw [hp] at ho
      split at hs
      · simp only [Option.some.injEq, Prod.mk.injEq] at hs
        obtain ⟨rfl, rfl⟩ := hs
        have hcur := cur_go hI.cur hI.busy hp rfl
        refine ⟨upd H t (H t), hup _ _ ho.2, hupc _ hch, ?_, ?_, hI.nodup, hI.excl, hcur.1, hcur.2⟩
        · intro l u hw
          have := hI.own l u hw
          simp only [upd_apply]; grind
        · intro l u hw
          have := hI.own2 l u hw
          simp only [upd_apply]; grind
      · cases hs
    · rename_i k p hp
      rw [hp] at ho
      simp only [Option.some.injEq, Prod.mk.injEq] at hs
      obtain ⟨rfl, rfl⟩ := hs
      have hcur := cur_go hI.cur hI.busy hp rfl
      refine ⟨upd H t (H t), hup _ _ ho, hupc _ hch, ?_, ?_, hI.nodup, hI.excl, hcur.1, hcur.2⟩
      · intro l u hw
        have := hI.own l u hw
        simp only [upd_apply]; grind
      · intro l u hw
        have := hI.own2 l u hw
        simp only [upd_apply]; grind

/-- all calls of the trace keep to the rules -/
def AllFine (h : Nat → Nat) (tr : List Ev) : Prop := ∀ t c, Ev.called t c ∈ tr → c.Fine h

theorem reach_inv (h : Nat → Nat) {s : St} {tr : List Ev} (hr : machine.Reaches s tr) (hf : AllFine h tr) : ∃ H, Inv h H s tr := by
  refine Machine.Reaches.inv (M := machine) (I := fun s tr => AllFine h tr → ∃ H, Inv h H s tr) ?_ ?_ hr hf
  · exact fun _ => ⟨_, inv_init h⟩
  · intro s tr l s' e ih hs hf
    obtain ⟨H, hI⟩ := ih fun t c hm => hf t c (by simp [hm])
    exact inv_step h H s tr l s' e hI hs fun t c hm => hf t c (by simp [hm])


/-- the call of thread `t` can go on, even if shared locks are refused as long as somebody asks for the lock exclusively -/
def CanGo (s : St) (t : Nat) : Prop :=
  (∃ s' e, machine.step s (.go t) = some (s', e)) ∧ ∀ l p, s.prog t = .acq l false :: p → ∀ u q, s.prog u ≠ .acq l true :: q

/-- **C100.**  If no call can go on, then nobody is inside a call but threads that wait, of their own will, for a task that has not ended. -/
theorem calls_do_not_deadlock_partial (h : Nat → Nat) (s : St) (tr : List Ev) (hr : machine.Reaches s tr) (hf : AllFine h tr)
    (hstuck : ∀ t, ¬ CanGo s t) (t : Nat) (c : Call) (ho : OpenIn (.called t c) (.returned t) tr) :
    ∃ k, c = .op (.awaitTask k) ∧ s.over k = false := by
  obtain ⟨H, hI⟩ := reach_inv h hr hf
  -- nothing but a lock or a task blocks a thread
  have hrel : ∀ u l p, s.prog u ≠ .rel l :: p := by
    intro u l p hp
    refine hstuck u ⟨?_, by simp [hp]⟩
    simp only [machine, step, hp]
    split <;> exact ⟨_, _, rfl⟩
  have hends : ∀ u k p, s.prog u ≠ .ends k :: p := by
    intro u k p hp
    refine hstuck u ⟨?_, by simp [hp]⟩
    simp only [machine, step, hp]
    exact ⟨_, _, rfl⟩
  have key : ∀ r, ∀ u l b p, rank h l = r → s.prog u ≠ .acq l b :: p := by
    intro r
    induction r using lt_wf.induction with
    | _ r ih =>
      -- nobody holds a lock of this rank
      have hheld : ∀ v l, rank h l = r → l ∉ H v := by
        intro v l hl hm
        have hov := hI.ord v
        cases hp : s.prog v with
        | nil => rw [hp] at hov; rw [ordered_nil hov rfl] at hm; cases hm
        | cons i p =>
          rw [hp] at hov
          cases i with
          | acq l' b => exact ih _ (hl ▸ hov.1 l hm) v l' b p rfl hp
          | rel l' => exact hrel v l' p hp
          | wait k => rw [hov.1] at hm; cases hm
          | ends k => exact hends v k p hp
      have hfree : ∀ l, rank h l = r → s.writer l = none ∧ s.readers l = [] := by
        intro l hl
        constructor
        · cases hw : s.writer l with
          | none => rfl
          | some v => exact absurd (hI.own l v hw) (hheld v l hl)
        · cases hw : s.readers l with
          | nil => rfl
          | cons v vs => exact absurd (hI.own2 l v (by simp [hw])) (hheld v l hl)
      have hex : ∀ u l p, rank h l = r → s.prog u ≠ .acq l true :: p := by
        intro u l p hl hp
        refine hstuck u ⟨?_, by simp [hp]⟩
        simp only [machine, step, hp, hfree l hl]
        exact ⟨_, _, rfl⟩
      intro u l b p hl hp
      cases b with
      | true => exact hex u l p hl hp
      | false =>
        refine hstuck u ⟨?_, ?_⟩
        · simp only [machine, step, hp, hfree l hl]
          exact ⟨_, _, rfl⟩
        · intro l' p' hp' v q
          rw [hp] at hp'
          cases hp'
          exact hex v l q hl
  obtain ⟨hne, hsuf⟩ := hI.cur t c ho
  have hcf : c.Fine h := by
    obtain ⟨a, b, rfl, _⟩ := ho
    exact hf t c (by simp)
  cases hp : s.prog t with
  | nil => exact absurd hp hne
  | cons i p =>
    cases i with
    | acq l b => exact absurd hp (key _ t l b p rfl)
    | rel l => exact absurd hp (hrel t l p)
    | ends k => exact absurd hp (hends t k p)
    | wait k =>
      refine ⟨k, (call_ordered h c hcf).2 k (hsuf.subset (by simp [hp])), ?_⟩
      cases hov : s.over k with
      | false => rfl
      | true =>
        exfalso
        refine hstuck t ⟨?_, by simp [hp]⟩
        simp only [machine, step, hp, hov]
        exact ⟨_, _, rfl⟩

/-- what the calls of the threads `T` have still to do -/
def left (T : List Nat) (s : St) : Nat := (T.map fun t => (s.prog t).length).sum

theorem left_upd (T : List Nat) (prog : Nat → List Instr) (t : Nat) (i : Instr) (p : List Instr) (hp : prog t = i :: p) (ht : t ∈ T) :
    (T.map fun u => (upd prog t p u).length).sum < (T.map fun u => (prog u).length).sum := by
  have hle : ∀ T : List Nat, (T.map fun u => (upd prog t p u).length).sum ≤ (T.map fun u => (prog u).length).sum := by
    intro T
    induction T with
    | nil => simp
    | cons u T ih =>
      have : (upd prog t p u).length ≤ (prog u).length := by
        simp only [upd_apply]; split
        · rename_i hu; subst hu; simp [hp]
        · exact Nat.le_refl _
      simp only [List.map_cons, List.sum_cons]
      omega
  induction T with
  | nil => cases ht
  | cons u T ih =>
    simp only [List.map_cons, List.sum_cons]
    by_cases hu : u = t
    · subst hu
      have := hle T
      simp only [upd_same, hp, List.length_cons]
      omega
    · have hm : t ∈ T := by
        rcases List.mem_cons.1 ht with h1 | h1
        · exact absurd h1.symm hu
        · exact h1
      have := ih hm
      rw [upd_ne _ _ hu]
      omega

theorem go_prog (s : St) (t : Nat) (s' : St) (e : List Ev) (hs : step s (.go t) = some (s', e)) :
    ∃ i p, s.prog t = i :: p ∧ s'.prog = upd s.prog t p ∧ ∀ u c, Ev.called u c ∉ e := by
  have hret : ∀ p u c, Ev.called u c ∉ ret t p := by
    intro p u c; unfold ret; split <;> simp
  simp only [step] at hs
  split at hs
  · cases hs
  all_goals
    rename_i hp
    try split at hs
    all_goals first
      | cases hs; done
      | (simp only [Option.some.injEq, Prod.mk.injEq] at hs; obtain ⟨rfl, rfl⟩ := hs; exact ⟨_, _, hp, rfl, hret _⟩)

/-- **C100.**  Once no new calls are made, the calls come to an end, whatever the order in which the threads run: there is a bound on the number of steps, and when no thread can go
on every call has returned, except those that wait for a task that has not ended. -/
theorem calls_return_partial (h : Nat → Nat) (s : St) (tr : List Ev) (hr : machine.Reaches s tr) (hf : AllFine h tr) :
    ∃ n, ∀ (ts : List Nat) s' tr', machine.runFrom s (ts.map .go) = some (s', tr') → ts.length ≤ n ∧
      ((∀ t, ¬ CanGo s' t) → ∀ t c, OpenIn (.called t c) (.returned t) (tr ++ tr') → ∃ k, c = .op (.awaitTask k) ∧ s'.over k = false) := by
  obtain ⟨H, hI⟩ := reach_inv h hr hf
  let T : List Nat := tr.filterMap fun e => match e with | .called t _ => some t | _ => none
  have hT : ∀ u, s.prog u ≠ [] → u ∈ T := by
    intro u hu
    obtain ⟨c, a, b, hab, _⟩ := hI.busy u hu
    simp only [T, List.mem_filterMap]
    exact ⟨.called u c, by simp [hab], rfl⟩
  refine ⟨left T s, fun ts s' tr' hrun => ?_⟩
  have hgen : ∀ (ts : List Nat) (s s' : St) (tr' : List Ev), (∀ u, s.prog u ≠ [] → u ∈ T) → machine.runFrom s (ts.map .go) = some (s', tr') →
      ts.length + left T s' ≤ left T s ∧ ∀ u c, Ev.called u c ∉ tr' := by
    intro ts
    induction ts with
    | nil =>
      intro s s' tr' _ h1
      simp only [List.map_nil, Machine.runFrom, Option.some.injEq, Prod.mk.injEq] at h1
      obtain ⟨rfl, rfl⟩ := h1
      simp
    | cons t ts ih =>
      intro s s' tr' hT h1
      simp only [List.map_cons, Machine.runFrom] at h1
      cases h2 : machine.step s (.go t) with
      | none => rw [h2] at h1; cases h1
      | some q =>
        obtain ⟨s1, e1⟩ := q
        simp only [h2] at h1
        cases h3 : machine.runFrom s1 (ts.map .go) with
        | none => simp [h3] at h1
        | some q =>
          obtain ⟨s2, e2⟩ := q
          simp only [h3, Option.some.injEq, Prod.mk.injEq] at h1
          obtain ⟨rfl, rfl⟩ := h1
          obtain ⟨i, p, hp, hprog, hne⟩ := go_prog s t s1 e1 h2
          have hT1 : ∀ u, s1.prog u ≠ [] → u ∈ T := by
            intro u hu
            rw [hprog] at hu
            apply hT
            by_cases h4 : u = t
            · subst h4; simp [hp]
            · rwa [upd_ne _ _ h4] at hu
          have := ih s1 s2 e2 hT1 h3
          have hlt := left_upd T s.prog t i p hp (hT t (by simp [hp]))
          have hl : left T s1 = (T.map fun u => (upd s.prog t p u).length).sum := by simp [left, hprog]
          refine ⟨?_, ?_⟩
          · simp only [List.length_cons]
            have : left T s = (T.map fun u => (s.prog u).length).sum := rfl
            omega
          · intro u c hm
            rcases List.mem_append.1 hm with hm | hm
            · exact hne u c hm
            · exact this.2 u c hm
  obtain ⟨h1, h2⟩ := hgen ts s s' tr' hT hrun
  refine ⟨by omega, fun hst t c ho => ?_⟩
  have hr' : machine.Reaches s' (tr ++ tr') := by
    obtain ⟨ls, hls⟩ := hr
    refine ⟨ls ++ ts.map .go, ?_⟩
    simp only [Machine.run] at hls ⊢
    rw [Machine.runFrom_append, hls]
    simp [hrun]
  refine calls_do_not_deadlock_partial h s' (tr ++ tr') hr' ?_ hst t c ho
  intro u c' hm
  rcases List.mem_append.1 hm with hm | hm
  · exact hf u c' hm
  · exact absurd hm (h2 u c')


/-- a user loop whose do_occured_nonblk() adds another user loop -/
def addsLoop : Call := .work 0 none [] [.addLoop []] [] none

theorem open_append {g r : Ev} {tr tr' : List Ev} (h : OpenIn g r tr) (hn : r ∉ tr') : OpenIn g r (tr ++ tr') := by
  obtain ⟨a, b, rfl, hb⟩ := h
  exact ⟨a, b ++ tr', by simp, by simp [hb, hn]⟩

theorem ret_mem {t u : Nat} {p : List Instr} (h : Ev.returned u ∈ ret t p) : u = t := by
  unfold ret at h; split at h <;> simp_all

/-- what a step by another thread cannot change -/
theorem other_step (s : St) (l : Lbl) (s' : St) (e : List Ev) (hs : step s l = some (s', e)) (u : Nat) (hu : l ≠ .go u) :
    Ev.returned u ∉ e ∧ (s.prog u ≠ [] → s'.prog u = s.prog u) ∧ (∀ x, u ∈ s.readers x → u ∈ s'.readers x) ∧ (∀ x, s.writer x = some u → s'.writer x = some u) := by
  cases l with
  | call t c =>
    simp only [step] at hs
    split at hs
    · rename_i h1
      simp only [Option.some.injEq, Prod.mk.injEq] at hs
      obtain ⟨rfl, rfl⟩ := hs
      refine ⟨by simp, fun h2 => ?_, fun _ h => h, fun _ h => h⟩
      have h3 : u ≠ t := by rintro rfl; exact h2 (by simpa using h1)
      exact upd_ne _ _ h3
    · cases hs
  | go t =>
    have hne : u ≠ t := by rintro rfl; exact hu rfl
    simp only [step] at hs
    split at hs
    · cases hs
    all_goals
      try split at hs
      all_goals first
        | cases hs; done
        | (simp only [Option.some.injEq, Prod.mk.injEq] at hs
           obtain ⟨rfl, rfl⟩ := hs
           refine ⟨fun hm => hne (ret_mem hm), fun _ => upd_ne _ _ hne, ?_, ?_⟩
           · intro x hx
             simp only [upd_apply]
             try (split <;> first | exact hx | skip)
             all_goals try (rename_i hxl; subst hxl)
             all_goals first
               | exact hx
               | exact List.mem_cons_of_mem _ hx
               | exact (List.mem_erase_of_ne hne).2 hx
           · intro x hx
             simp only [upd_apply]
             try (split <;> first | exact hx | skip)
             all_goals try (rename_i hxl; subst hxl)
             all_goals first
               | exact hx
               | simp_all)

/-- **C100, refuted without the rules.**  A user loop's do_occured_nonblk() that adds a loop never returns: the worker has locked the list of loops shared and asks for it
exclusively. -/
theorem add_loop_in_loop_refuted : ∃ s tr, machine.Reaches s tr ∧ (∀ t c, Ev.called t c ∈ tr → t = 0 ∧ c = addsLoop) ∧
    ∀ ls s' tr', machine.runFrom s ls = some (s', tr') → OpenIn (.called 0 addsLoop) (.returned 0) (tr ++ tr') := by
  have stuck : ∀ ls (s s' : St) tr', (∃ p, s.prog 0 = .acq .user true :: p) → 0 ∈ s.readers .user → machine.runFrom s ls = some (s', tr') →
      Ev.returned 0 ∉ tr' := by
    intro ls
    induction ls with
    | nil =>
      intro s s' tr' _ _ hrun
      simp only [Machine.runFrom, Option.some.injEq, Prod.mk.injEq] at hrun
      obtain ⟨rfl, rfl⟩ := hrun
      simp
    | cons l ls ih =>
      intro s s' tr' hp hrd hrun
      obtain ⟨p, hp⟩ := hp
      simp only [Machine.runFrom] at hrun
      cases h2 : machine.step s l with
      | none => rw [h2] at hrun; cases hrun
      | some q =>
        obtain ⟨s1, e1⟩ := q
        simp only [h2] at hrun
        cases h3 : machine.runFrom s1 ls with
        | none => simp [h3] at hrun
        | some q =>
          obtain ⟨s2, e2⟩ := q
          simp only [h3, Option.some.injEq, Prod.mk.injEq] at hrun
          obtain ⟨rfl, rfl⟩ := hrun
          have hl : l ≠ .go 0 := by
            rintro rfl
            simp only [machine, step, hp] at h2
            split at h2
            · rename_i h4; rw [h4.2] at hrd; cases hrd
            · cases h2
          obtain ⟨h5, h6, h7, _⟩ := other_step s l s1 e1 h2 0 hl
          have := ih s1 s2 e2 ⟨p, by rw [h6 (by simp [hp]), hp]⟩ (h7 _ hrd) h3
          simp [h5, this]
  have hrun : ∃ s, machine.Reaches s [.called 0 addsLoop] ∧ s.prog 0 = [.acq .user true, .rel .user, .rel .user] ∧ s.readers .user = [0] :=
    ⟨_, ⟨[.call 0 addsLoop, .go 0, .go 0, .go 0, .go 0, .go 0, .go 0, .go 0], rfl⟩, rfl, rfl⟩
  obtain ⟨s, hr, h1, h2⟩ := hrun
  refine ⟨s, _, hr, by simp, fun ls s' tr' hls => ?_⟩
  exact open_append ⟨[], [], rfl, by simp⟩ (stuck ls s s' tr' ⟨_, h1⟩ (by simp [h2]) hls)


mutual
/-- user code called back does not itself end tasks -/
theorem op_no_ends (k : Nat) : ∀ o : Op, Instr.ends k ∉ opCode o
  | .genDestroy g locals => by
    have := ops_no_ends k locals
    rw [opCode.eq_def]; simpa [crit] using this
  | .addLoop prep => by
    have := ops_no_ends k prep
    rw [opCode.eq_def]; simpa [crit] using this
  | .enqueue _ => by simp [opCode, onQueue]
  | .setResult _ _ => by simp [opCode, crit, onQueue]
  | .await _ _ => by simp [opCode, crit, onQueue]
  | .take _ => by simp [opCode, crit]
  | .shared _ _ => by simp [opCode, crit, onQueue]
  | .firstAcquire _ => by simp [opCode, crit]
  | .destroyMutex => by simp [opCode, crit]
  | .sleep _ => by simp [opCode, crit]
  | .uring _ => by simp [opCode, crit]
  | .dirAcquire _ _ => by simp [opCode, crit, onQueue]
  | .genUse _ => by simp [opCode, crit]
  | .awaitTask _ => by simp [opCode]

theorem ops_no_ends (k : Nat) : ∀ os : List Op, Instr.ends k ∉ opCodes os
  | [] => by simp [opCodes]
  | o :: os => by
    have h1 := op_no_ends k o
    have h2 := ops_no_ends k os
    rw [opCodes.eq_def]; simp [h1, h2]
end

/-- before task `k` ends the thread takes the lock of the timers -/
def Guarded (k : Nat) (p : List Instr) : Prop := ∀ a b, p = a ++ .ends k :: b → ∃ e, Instr.acq .ptrs e ∈ a

theorem call_guarded (k : Nat) (c : Call) : Guarded k (callCode c) := by
  have hno : ∀ p : List Instr, Instr.ends k ∉ p → Guarded k p := by
    intro p hp a b hab; exact absurd (by simp [hab]) hp
  have ho := op_no_ends k
  have hos := ops_no_ends k
  have hpoll : ∀ w t c u, Instr.ends k ∉ pollCode w t c u := by
    intro w t c u
    have := hos u
    cases t <;> simp [pollCode, crit, onQueue, this]
  have hst : ∀ w ws u, Instr.ends k ∉ statusCode w ws u := by
    intro w ws u
    have := hos u
    simp [statusCode, crit, this]
  cases c with
  | op o => exact hno _ (ho o)
  | workerStart w q prep => exact hno _ (by simp [callCode, crit, onQueue, hos prep])
  | rest w timers compl user qs sleep status =>
    refine hno _ ?_
    cases status <;> simp [callCode, crit, onQueue, hos, hpoll, hst]
  | stopLoops user => exact hno _ (by simp [callCode, crit, hos])
  | dropTimers locals => exact hno _ (by simp [callCode, crit, hos])
  | work w timers compl user qs ends =>
    intro a b hab
    refine ⟨false, ?_⟩
    simp only [callCode, pollCode, crit, List.cons_append] at hab
    cases a with
    | nil => simp at hab
    | cons i a =>
      simp only [List.cons_append, List.cons.injEq] at hab
      rw [← hab.1]; simp

/-- the runtime is stopped while a task sleeps whose local variables wait for a task when they are destroyed (a dir_mutex_guard: the task that deletes the lock file) -/
def stopWithGuard (k : Nat) : Call := .dropTimers [.awaitTask k]

/-- **C100, refuted without the rules.**  Stopping the runtime hangs for ever if a sleeping task holds a dir_mutex: the destructor of the guard waits for a task, with the lock of
the timers held, and every worker needs that lock before it executes anything. -/
theorem quick_stop_hangs_refuted (k : Nat) : ∃ s tr, machine.Reaches s tr ∧ (∀ t c, Ev.called t c ∈ tr → t = 0 ∧ c = stopWithGuard k) ∧
    ∀ ls s' tr', machine.runFrom s ls = some (s', tr') → OpenIn (.called 0 (stopWithGuard k)) (.returned 0) (tr ++ tr') ∧ s'.over k = false := by
  have stuck : ∀ ls (s s' : St) tr', (∃ p, s.prog 0 = .wait k :: p) → s.writer .ptrs = some 0 → s.over k = false → (∀ u, u ≠ 0 → Guarded k (s.prog u)) →
      machine.runFrom s ls = some (s', tr') → Ev.returned 0 ∉ tr' ∧ s'.over k = false := by
    intro ls
    induction ls with
    | nil =>
      intro s s' tr' _ _ hov _ hrun
      simp only [Machine.runFrom, Option.some.injEq, Prod.mk.injEq] at hrun
      obtain ⟨rfl, rfl⟩ := hrun
      simp [hov]
    | cons l ls ih =>
      intro s s' tr' hp hw hov hg hrun
      obtain ⟨p, hp⟩ := hp
      simp only [Machine.runFrom] at hrun
      cases h2 : machine.step s l with
      | none => rw [h2] at hrun; cases hrun
      | some q =>
        obtain ⟨s1, e1⟩ := q
        simp only [h2] at hrun
        cases h3 : machine.runFrom s1 ls with
        | none => simp [h3] at hrun
        | some q =>
          obtain ⟨s2, e2⟩ := q
          simp only [h3, Option.some.injEq, Prod.mk.injEq] at hrun
          obtain ⟨rfl, rfl⟩ := hrun
          have hl : l ≠ .go 0 := by
            rintro rfl
            simp [machine, step, hp, hov] at h2
          obtain ⟨h5, h6, _, h8⟩ := other_step s l s1 e1 h2 0 hl
          have hnew : s1.over k = false ∧ ∀ u, u ≠ 0 → Guarded k (s1.prog u) := by
            cases l with
            | call t c =>
              simp only [machine, step] at h2
              split at h2
              · simp only [Option.some.injEq, Prod.mk.injEq] at h2
                obtain ⟨rfl, rfl⟩ := h2
                refine ⟨hov, fun u hu => ?_⟩
                simp only [upd_apply]
                split
                · exact call_guarded k c
                · exact hg u hu
              · cases h2
            | go t =>
              have ht : t ≠ 0 := fun h => hl (by rw [h])
              obtain ⟨i, q, hq, hprog, _⟩ := go_prog s t s1 e1 h2
              have hgt := hg t ht
              rw [hq] at hgt
              have hi : ∀ e, i ≠ .acq .ptrs e := by
                rintro e rfl
                cases e <;> simp [machine, step, hq, hw] at h2
              have hik : i ≠ .ends k := by
                rintro rfl
                obtain ⟨e, he⟩ := hgt [] q rfl
                cases he
              refine ⟨?_, fun u hu => ?_⟩
              · simp only [machine, step, hq] at h2
                cases i with
                | acq l b => cases b <;> simp only at h2 <;> split at h2 <;> first | (cases h2; done) | (cases h2; exact hov)
                | rel l => simp only at h2; split at h2 <;> cases h2 <;> exact hov
                | wait k' => simp only at h2; split at h2 <;> first | (cases h2; done) | (cases h2; exact hov)
                | ends k' =>
                  simp only [Option.some.injEq, Prod.mk.injEq] at h2
                  obtain ⟨rfl, rfl⟩ := h2
                  have : k ≠ k' := by rintro rfl; exact hik rfl
                  simp only [upd_ne _ _ this, hov]
              · rw [hprog]
                by_cases hut : u = t
                · subst hut
                  rw [upd_same]
                  intro a b hab
                  obtain ⟨e, he⟩ := hgt (i :: a) b (by simp [hab])
                  rcases List.mem_cons.1 he with he | he
                  · exact absurd he.symm (hi e)
                  · exact ⟨e, he⟩
                · rw [upd_ne _ _ hut]; exact hg u hu
          have := ih s1 s2 e2 ⟨p, by rw [h6 (by simp [hp]), hp]⟩ (h8 _ hw) hnew.1 hnew.2 h3
          exact ⟨by simp [h5, this.1], this.2⟩
  have hrun : ∃ s, machine.Reaches s [.called 0 (stopWithGuard k)] ∧ s.prog 0 = [.wait k, .rel .ptrs] ∧ s.writer .ptrs = some 0 ∧ s.over k = false ∧
      ∀ u, u ≠ 0 → s.prog u = [] :=
    ⟨_, ⟨[.call 0 (stopWithGuard k), .go 0], rfl⟩, rfl, rfl, rfl, fun u hu => by simp [machine, init, upd_apply, hu]⟩
  obtain ⟨s, hr, h1, h2, h3, h4⟩ := hrun
  refine ⟨s, _, hr, by simp, fun ls s' tr' hls => ?_⟩
  have := stuck ls s s' tr' ⟨_, h1⟩ h2 h3 (fun u hu => by rw [h4 u hu]; intro a b hab; simp at hab) hls
  exact ⟨open_append ⟨[], [], rfl, by simp⟩ this.1, this.2⟩

/-- A concrete case: a worker that wakes the sleeper of a due timer holds the locks of the timers, a second thread that stops the runtime and drops a sleeping task, which owns a generator inside a
generator, waits for it, a third waits for a task; all keep to the rules. -/
theorem locks_nontrivial : ∃ s tr, machine.Reaches s tr ∧ AllFine (fun g => 2 - g) tr ∧
    OpenIn (.called 0 (.work 0 (some [0]) [1] [.sleep 0, .enqueue 0] [0] (some 7))) (.returned 0) tr ∧
    OpenIn (.called 1 (.dropTimers [.genDestroy 0 [.genDestroy 1 [.destroyMutex], .shared 0 [0]]])) (.returned 1) tr ∧
    OpenIn (.called 2 (.op (.awaitTask 7))) (.returned 2) tr ∧ ¬ CanGo s 1 ∧ ¬ CanGo s 2 ∧ CanGo s 0 := by
  refine ⟨_, [.called 0 (.work 0 (some [0]) [1] [.sleep 0, .enqueue 0] [0] (some 7)),
      .called 1 (.dropTimers [.genDestroy 0 [.genDestroy 1 [.destroyMutex], .shared 0 [0]]]), .called 2 (.op (.awaitTask 7))],
    ⟨[.call 0 (.work 0 (some [0]) [1] [.sleep 0, .enqueue 0] [0] (some 7)), .go 0, .go 0, .go 0, .go 0,
      .call 1 (.dropTimers [.genDestroy 0 [.genDestroy 1 [.destroyMutex], .shared 0 [0]]]), .call 2 (.op (.awaitTask 7))], rfl⟩, ?_, ?_, ?_, ?_, ?_, ?_, ?_⟩
  · intro t c hm
    simp only [List.mem_cons, Ev.called.injEq, List.not_mem_nil, or_false] at hm
    rcases hm with ⟨_, rfl⟩ | ⟨_, rfl⟩ | ⟨_, rfl⟩
    · simp [Call.Fine, Op.inLoop]
    · simp [Call.Fine, Op.quiets, Op.quiet]
    · simp [Call.Fine, Op.free]
  · exact ⟨[], _, rfl, by simp⟩
  · exact ⟨[_], _, rfl, by simp⟩
  · exact ⟨[_, _], _, rfl, by simp⟩
  · rintro ⟨⟨s', e, h⟩, _⟩; cases h
  · rintro ⟨⟨s', e, h⟩, _⟩; cases h
  · refine ⟨⟨_, _, rfl⟩, ?_⟩
    intro l p h; cases h

end Verif.Locks
