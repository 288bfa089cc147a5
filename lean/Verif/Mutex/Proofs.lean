import Verif.Mutex.Model
/-!
# Helper lemmas for `koios::mutex`
-/

namespace Verif.Mutex

theorem life_concat (t : Nat) (tr : List Ev) (x : Ev) :
    life t (tr ++ [x]) = (life t tr).bind (lifeStep t · x) := by
  simp [life, List.foldl_append]

theorem life_append_two (t : Nat) (tr : List Ev) (x y : Ev) :
    life t (tr ++ [x, y]) = ((life t tr).bind (lifeStep t · x)).bind (lifeStep t · y) := by
  simp [life, List.foldl_append]

/-- An open grant means the task's life is at `holding`. -/
theorem holding_of_open (t : Nat) :
    ∀ (n : Nat) (tr : List Ev) (l : Life), tr.length = n → life t tr = some l →
      OpenIn (.granted t) (.released t) tr → l = .holding := by
  intro n
  induction n with
  | zero =>
    intro tr l hn hl ho
    rw [List.length_eq_zero_iff] at hn
    subst hn
    exact absurd ho (not_openIn_nil _ _)
  | succ n ih =>
    intro tr l hn hl ho
    rcases List.eq_nil_or_concat tr with h | ⟨tr', x, h⟩
    · subst h; simp at hn
    · subst h
      rw [List.concat_eq_append] at *
      rw [openIn_concat] at ho
      rw [life_concat] at hl
      simp at hn
      cases hlt : life t tr' with
      | none => simp [hlt] at hl
      | some l' =>
        simp only [hlt, Option.bind_some] at hl
        rcases ho with rfl | ⟨hx, ho⟩
        · simp only [lifeStep] at hl
          grind
        · have := ih tr' l' hn hlt ho
          subst this
          cases x <;> simp only [lifeStep] at hl <;> grind

theorem mutualExclusion_concat (tr : List Ev) (x : Ev) :
    MutualExclusion (tr ++ [x]) ↔
      MutualExclusion tr ∧ ∀ u, x = .granted u → ∀ t, ¬ OpenIn (.granted t) (.released t) tr := by
  unfold MutualExclusion
  constructor
  · intro h
    refine ⟨fun p u hp => h p u (hp.trans (List.prefix_append _ _)), ?_⟩
    rintro u rfl
    exact h tr u (List.prefix_refl _)
  · rintro ⟨h1, h2⟩ p u hp
    rw [concat_prefix_concat_iff] at hp
    rcases hp with hp | ⟨rfl, hx⟩
    · exact h1 p u hp
    · exact h2 u hx.symm

/-- Program counters that own the flag. -/
def Pc.owns : Pc → Bool
  | .holding | .woken | .rel2 | .rel3 | .relWake _ => true
  | _ => false

/-- What a program counter looks like from outside. -/
def Pc.life : Pc → Life
  | .idle => .out
  | .missed => .asking
  | .queued => .asleep
  | .woken => .wakened
  | .holding => .holding
  | .rel1 | .rel2 | .rel3 | .relWake _ => .unlocking

structure Inv (s : St) (tr : List Ev) : Prop where
  life : ∀ t, life t tr = some (s.pc t).life
  uniq : ∀ t u, (s.pc t).owns = true → (s.pc u).owns = true → t = u
  flagOf : ∀ t, (s.pc t).owns = true → s.flag = true
  ownerOf : s.flag = true → ∃ t, (s.pc t).owns = true
  nodup : s.queue.Nodup
  queued : ∀ u, u ∈ s.queue → s.pc u = .queued
  relQ : ∀ t u, s.pc t = .relWake u → s.pc u = .queued ∧ u ∉ s.queue
  whereQ : ∀ u, s.pc u = .queued → u ∈ s.queue ∨ ∃ t, s.pc t = .relWake u
  mutex : MutualExclusion tr

theorem Inv.noOpen {s : St} {tr : List Ev} (h : Inv s tr) (hf : s.flag = false) (t : Nat) :
    ¬ OpenIn (.granted t) (.released t) tr := by
  intro ho
  have := holding_of_open t _ tr _ rfl (h.life t) ho
  have hp : (s.pc t).owns = true := by
    cases hp : s.pc t <;> simp [hp, Pc.life] at this <;> rfl
  have := h.flagOf t hp
  simp [hf] at this

theorem Inv.open_owner {s : St} {tr : List Ev} (h : Inv s tr) {t : Nat}
    (ho : OpenIn (.granted t) (.released t) tr) : s.pc t = .holding := by
  have := holding_of_open t _ tr _ rfl (h.life t) ho
  cases hp : s.pc t <;> simp [hp, Pc.life] at this <;> rfl

theorem inv_init : Inv init [] := by
  constructor <;> simp [init, Mutex.life, Pc.life, Pc.owns, MutualExclusion]

theorem append_two {α : Type} (tr : List α) (x y : α) : tr ++ [x, y] = (tr ++ [x]) ++ [y] := by simp

theorem openIn_other {g r x : Ev} {tr : List Ev} (h1 : x ≠ g) (h : OpenIn g r (tr ++ [x])) :
    OpenIn g r tr := by
  rw [openIn_concat] at h
  rcases h with h | h
  · exact absurd h h1
  · exact h.2

theorem inv_step (weak : Bool) (s : St) (tr : List Ev) (l : Lbl) (s' : St) (e : List Ev)
    (h : Inv s tr) (hs : step weak s l = some (s', e)) : Inv s' (tr ++ e) := by
  obtain ⟨hlife, huniq, hflag, hown, hnd, hq, hrq, hwq, hm⟩ := h
  have hI : Inv s tr := ⟨hlife, huniq, hflag, hown, hnd, hq, hrq, hwq, hm⟩
  cases l with
  | acquire t =>
    simp only [step] at hs
    split at hs
    · rename_i hpc
      split at hs
      · rename_i hf
        simp only [Option.some.injEq, Prod.mk.injEq] at hs
        obtain ⟨rfl, rfl⟩ := hs
        constructor <;> try dsimp only
        · intro u; rw [life_concat, hlife u]; simp only [Option.bind_some, lifeStep, upd_apply]
          grind [Pc.life]
        · grind [upd, Pc.owns]
        · grind [upd, Pc.owns]
        · intro _; obtain ⟨v, hv⟩ := hown hf; exact ⟨v, by grind [upd, Pc.owns]⟩
        · exact hnd
        · grind [upd]
        · grind [upd]
        · intro u hu
          have : s.pc u = .queued := by grind [upd]
          rcases hwq u this with h | ⟨v, hv⟩
          · exact Or.inl h
          · exact Or.inr ⟨v, by grind [upd]⟩
        · rw [mutualExclusion_concat]; exact ⟨hm, by simp⟩
      · rename_i hf
        simp only [Option.some.injEq, Prod.mk.injEq] at hs
        obtain ⟨rfl, rfl⟩ := hs
        have hf' : s.flag = false := by simpa using hf
        have hno : ∀ u, (s.pc u).owns ≠ true := fun u hu => by simp [hflag u hu] at hf
        constructor <;> try dsimp only
        · intro u; rw [life_append_two, hlife u]; simp only [Option.bind_some, lifeStep, upd_apply]
          grind [Pc.life]
        · grind [upd, Pc.owns]
        · simp
        · intro _; exact ⟨t, by simp [Pc.owns]⟩
        · exact hnd
        · grind [upd]
        · grind [upd]
        · intro u hu
          have : s.pc u = .queued := by grind [upd]
          rcases hwq u this with h | ⟨v, hv⟩
          · exact Or.inl h
          · exact Or.inr ⟨v, by grind [upd]⟩
        · rw [append_two, mutualExclusion_concat, mutualExclusion_concat]
          refine ⟨⟨hm, by simp⟩, ?_⟩
          intro u _ v ho
          exact hI.noOpen hf' v (openIn_other (by simp) ho)
    · simp at hs
  | suspend t =>
    simp only [step] at hs
    split at hs
    · rename_i hpc
      simp only [Option.some.injEq, Prod.mk.injEq] at hs
      obtain ⟨rfl, rfl⟩ := hs
      constructor <;> try dsimp only
      · intro u; rw [life_concat, hlife u]; simp only [Option.bind_some, lifeStep, upd_apply]
        grind [Pc.life]
      · grind [upd, Pc.owns]
      · grind [upd, Pc.owns]
      · intro hf; obtain ⟨v, hv⟩ := hown hf; exact ⟨v, by grind [upd, Pc.owns]⟩
      · rw [List.nodup_append]; grind
      · grind [upd]
      · grind [upd]
      · intro u hu
        by_cases hut : u = t
        · left; simp [hut]
        · rw [upd_ne _ _ hut] at hu
          rcases hwq u hu with h | ⟨v, hv⟩
          · exact Or.inl (by simp [h])
          · exact Or.inr ⟨v, by grind [upd]⟩
      · rw [mutualExclusion_concat]; exact ⟨hm, by simp⟩
    · simp at hs
  | resume t =>
    simp only [step] at hs
    split at hs
    · rename_i hpc
      simp only [Option.some.injEq, Prod.mk.injEq] at hs
      obtain ⟨rfl, rfl⟩ := hs
      have htown : (s.pc t).owns = true := by simp [hpc, Pc.owns]
      constructor <;> try dsimp only
      · intro u; rw [life_concat, hlife u]; simp only [Option.bind_some, lifeStep, upd_apply]
        grind [Pc.life]
      · grind [upd, Pc.owns]
      · grind [upd, Pc.owns]
      · intro hf; exact ⟨t, by simp [Pc.owns]⟩
      · exact hnd
      · grind [upd]
      · grind [upd]
      · intro u hu
        have : s.pc u = .queued := by grind [upd]
        rcases hwq u this with h | ⟨v, hv⟩
        · exact Or.inl h
        · exact Or.inr ⟨v, by grind [upd]⟩
      · rw [mutualExclusion_concat]
        refine ⟨hm, ?_⟩
        intro u _ v ho
        have hv := hI.open_owner ho
        have := huniq v t (by simp [hv, Pc.owns]) htown
        subst this
        simp [hv] at hpc
    · simp at hs
  | tryAcquire t =>
    simp only [step] at hs
    split at hs
    · rename_i hpc
      split at hs
      · rename_i hf
        simp only [Option.some.injEq, Prod.mk.injEq] at hs
        obtain ⟨rfl, rfl⟩ := hs
        constructor
        · intro u; rw [life_append_two, hlife u]; simp only [Option.bind_some, lifeStep]
          grind [Pc.life]
        · exact huniq
        · exact hflag
        · exact hown
        · exact hnd
        · exact hq
        · exact hrq
        · exact hwq
        · rw [append_two, mutualExclusion_concat, mutualExclusion_concat]; exact ⟨⟨hm, by simp⟩, by simp⟩
      · rename_i hf
        simp only [Option.some.injEq, Prod.mk.injEq] at hs
        obtain ⟨rfl, rfl⟩ := hs
        have hf' : s.flag = false := by simpa using hf
        have hno : ∀ u, (s.pc u).owns ≠ true := fun u hu => by simp [hflag u hu] at hf
        constructor <;> try dsimp only
        · intro u; rw [life_append_two, hlife u]; simp only [Option.bind_some, lifeStep, upd_apply]
          grind [Pc.life]
        · grind [upd, Pc.owns]
        · simp
        · intro _; exact ⟨t, by simp [Pc.owns]⟩
        · exact hnd
        · grind [upd]
        · grind [upd]
        · intro u hu
          have : s.pc u = .queued := by grind [upd]
          rcases hwq u this with h | ⟨v, hv⟩
          · exact Or.inl h
          · exact Or.inr ⟨v, by grind [upd]⟩
        · rw [append_two, mutualExclusion_concat, mutualExclusion_concat]
          refine ⟨⟨hm, by simp⟩, ?_⟩
          intro u _ v ho
          exact hI.noOpen hf' v (openIn_other (by simp) ho)
    · simp at hs
  | unlock t =>
    simp only [step] at hs
    split at hs
    · rename_i hpc
      simp only [Option.some.injEq, Prod.mk.injEq] at hs
      obtain ⟨rfl, rfl⟩ := hs
      have htown : (s.pc t).owns = true := by simp [hpc, Pc.owns]
      constructor <;> try dsimp only
      · intro u; rw [life_concat, hlife u]; simp only [Option.bind_some, lifeStep, upd_apply]
        grind [Pc.life]
      · grind [upd, Pc.owns]
      · grind [upd, Pc.owns]
      · simp
      · exact hnd
      · grind [upd]
      · grind [upd]
      · intro u hu
        have : s.pc u = .queued := by grind [upd]
        rcases hwq u this with h | ⟨v, hv⟩
        · exact Or.inl h
        · exact Or.inr ⟨v, by grind [upd]⟩
      · rw [mutualExclusion_concat]; exact ⟨hm, by simp⟩
    · simp at hs
  | retake t =>
    simp only [step] at hs
    split at hs
    · rename_i hpc
      split at hs
      · rename_i hf
        simp only [Option.some.injEq, Prod.mk.injEq] at hs
        obtain ⟨rfl, rfl⟩ := hs
        constructor <;> try dsimp only
        · intro u; rw [life_concat, hlife u]; simp only [Option.bind_some, lifeStep, upd_apply]
          grind [Pc.life]
        · grind [upd, Pc.owns]
        · grind [upd, Pc.owns]
        · intro _; obtain ⟨v, hv⟩ := hown hf; exact ⟨v, by grind [upd, Pc.owns]⟩
        · exact hnd
        · grind [upd]
        · grind [upd]
        · intro u hu
          have : s.pc u = .queued := by grind [upd]
          rcases hwq u this with h | ⟨v, hv⟩
          · exact Or.inl h
          · exact Or.inr ⟨v, by grind [upd]⟩
        · rw [mutualExclusion_concat]; exact ⟨hm, by simp⟩
      · rename_i hf
        simp only [Option.some.injEq, Prod.mk.injEq] at hs
        obtain ⟨rfl, rfl⟩ := hs
        have hno : ∀ u, (s.pc u).owns ≠ true := fun u hu => by simp [hflag u hu] at hf
        simp only [List.append_nil]
        constructor <;> try dsimp only
        · intro u; rw [hlife u]; simp only [upd_apply]
          grind [Pc.life]
        · grind [upd, Pc.owns]
        · simp
        · intro _; exact ⟨t, by simp [Pc.owns]⟩
        · exact hnd
        · grind [upd]
        · grind [upd]
        · intro u hu
          have : s.pc u = .queued := by grind [upd]
          rcases hwq u this with h | ⟨v, hv⟩
          · exact Or.inl h
          · exact Or.inr ⟨v, by grind [upd]⟩
        · exact hm
    · simp at hs
  | dequeue t w =>
    simp only [step] at hs
    split at hs
    · rename_i hpc
      split at hs
      · rename_i hwm
        simp only [Option.some.injEq, Prod.mk.injEq] at hs
        obtain ⟨rfl, rfl⟩ := hs
        have htown : (s.pc t).owns = true := by simp [hpc, Pc.owns]
        have hmem : ∀ x, x ∈ s.queue.erase w ↔ x ∈ s.queue ∧ x ≠ w := by
          intro x; rw [hnd.mem_erase_iff]; exact And.comm
        simp only [List.append_nil]
        constructor <;> try dsimp only
        · intro u; rw [hlife u]; simp only [upd_apply]
          grind [Pc.life]
        · grind [upd, Pc.owns]
        · grind [upd, Pc.owns]
        · intro _; exact ⟨t, by simp [Pc.owns]⟩
        · exact hnd.erase w
        · intro u hu; rw [hmem] at hu; grind [upd]
        · intro v u hv
          rw [hmem]
          grind [upd, Pc.owns]
        · intro u hu
          have hu' : s.pc u = .queued := by grind [upd]
          by_cases huw : u = w
          · exact Or.inr ⟨t, by simp [huw]⟩
          · rcases hwq u hu' with h | ⟨v, hv⟩
            · exact Or.inl (by rw [hmem]; exact ⟨h, huw⟩)
            · exact Or.inr ⟨v, by grind [upd]⟩
        · exact hm
      · simp at hs
    · simp at hs
  | dequeueNone t =>
    simp only [step] at hs
    split at hs
    · rename_i hpc
      obtain ⟨hpc, -⟩ := hpc
      simp only [Option.some.injEq, Prod.mk.injEq] at hs
      obtain ⟨rfl, rfl⟩ := hs
      have htown : (s.pc t).owns = true := by simp [hpc, Pc.owns]
      simp only [List.append_nil]
      constructor <;> try dsimp only
      · intro u; rw [hlife u]; simp only [upd_apply]
        grind [Pc.life]
      · grind [upd, Pc.owns]
      · grind [upd, Pc.owns]
      · intro _; exact ⟨t, by simp [Pc.owns]⟩
      · exact hnd
      · grind [upd]
      · grind [upd]
      · intro u hu
        have : s.pc u = .queued := by grind [upd]
        rcases hwq u this with h | ⟨v, hv⟩
        · exact Or.inl h
        · exact Or.inr ⟨v, by grind [upd]⟩
      · exact hm
    · simp at hs
  | wake t =>
    simp only [step] at hs
    split at hs
    · rename_i w hpc
      simp only [Option.some.injEq, Prod.mk.injEq] at hs
      obtain ⟨rfl, rfl⟩ := hs
      have htown : (s.pc t).owns = true := by simp [hpc, Pc.owns]
      obtain ⟨hwq', hwn⟩ := hrq t w hpc
      have hwt : w ≠ t := by rintro rfl; simp [hpc] at hwq'
      constructor <;> try dsimp only
      · intro u; rw [life_append_two, hlife u]; simp only [Option.bind_some, lifeStep, upd_apply]
        by_cases h1 : u = w
        · subst h1; simp [hwq', Pc.life, hwt.symm]
        · by_cases h2 : u = t
          · subst h2; simp [h1, Ne.symm h1, hpc, Pc.life]
          · simp [h1, h2, Ne.symm h1, Ne.symm h2]
      · grind [upd, Pc.owns]
      · grind [upd, Pc.owns]
      · intro _; exact ⟨w, by simp [Pc.owns]⟩
      · exact hnd
      · grind [upd]
      · intro v u hv
        have hv' : s.pc v = .relWake u := by grind [upd]
        have hvt := huniq v t (by simp [hv', Pc.owns]) htown
        grind [upd]
      · intro u hu
        have hu' : s.pc u = .queued := by grind [upd]
        rcases hwq u hu' with h | ⟨v, hv⟩
        · exact Or.inl h
        · exfalso
          have hvt := huniq v t (by simp [hv, Pc.owns]) htown
          grind [upd]
      · rw [append_two, mutualExclusion_concat, mutualExclusion_concat]; exact ⟨⟨hm, by simp⟩, by simp⟩
    · simp at hs
  | clear t =>
    simp only [step] at hs
    split at hs
    · rename_i hpc
      simp only [Option.some.injEq, Prod.mk.injEq] at hs
      obtain ⟨rfl, rfl⟩ := hs
      have htown : (s.pc t).owns = true := by simp [hpc, Pc.owns]
      constructor <;> try dsimp only
      · intro u; rw [life_concat, hlife u]; simp only [Option.bind_some, lifeStep, upd_apply]
        grind [Pc.life]
      · grind [upd, Pc.owns]
      · grind [upd, Pc.owns]
      · simp
      · exact hnd
      · grind [upd]
      · grind [upd]
      · intro u hu
        have : s.pc u = .queued := by grind [upd]
        rcases hwq u this with h | ⟨v, hv⟩
        · exact Or.inl h
        · exact Or.inr ⟨v, by grind [upd]⟩
      · rw [mutualExclusion_concat]; exact ⟨hm, by simp⟩
    · simp at hs

theorem inv_of_reaches {weak : Bool} {s : St} {tr : List Ev}
    (h : (machine weak).Reaches s tr) : Inv s tr :=
  h.inv Inv inv_init (inv_step weak)

end Verif.Mutex
