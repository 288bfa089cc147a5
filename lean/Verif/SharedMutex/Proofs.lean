import Verif.SharedMutex.Model
/-!
# Helper lemmas for `koios::shared_mutex`
-/

namespace Verif.SharedMutex

theorem pick_mem {q : List Nat} {h u : Nat} (hp : pick q h = some u) : u ∈ q := by
  unfold pick at hp
  split at hp
  · simp at hp; subst hp; assumption
  · exact List.mem_of_head? hp

theorem pick_none {q : List Nat} {h : Nat} (hp : pick q h = none) : q = [] := by
  unfold pick at hp
  split at hp
  · simp at hp
  · simpa using hp

/-- Bookkeeping that holds in every execution. -/
structure G (s : St) (tr : List Ev) : Prop where
  hs : ∀ t, HoldsShr t tr ↔ (s.task t).shr = true
  hu : ∀ t, HoldsUni t tr ↔ (s.task t).uni = true
  bw : ∀ t, BecomingWriter t tr ↔ (s.task t).act = .wokeUni
  br : ∀ t, BecomingReader t tr ↔ (s.task t).act = .wokeShr
  ws : ∀ t, WaitsShr t tr ↔ (s.task t).act = .qShr
  wu : ∀ t, WaitsUni t tr ↔ (s.task t).act = .qUni
  qs : ∀ t, t ∈ s.shrQ ↔ (s.task t).act = .qShr
  qu : ∀ t, t ∈ s.uniQ ↔ (s.task t).act = .qUni
  ns : s.shrQ.Nodup
  nu : s.uniQ.Nodup
  fu : ∀ t, (s.task t).act = .missUni ∨ (s.task t).act = .qUni ∨ (s.task t).act = .wokeUni →
    (s.task t).uni = false
  fs : ∀ t, (s.task t).act = .missShr ∨ (s.task t).act = .qShr ∨ (s.task t).act = .wokeShr →
    (s.task t).shr = false

theorem g_init : G init [] := by
  constructor <;> simp [init, HoldsShr, HoldsUni, BecomingWriter, BecomingReader, WaitsShr, WaitsUni,
    not_openIn_nil]

theorem G.congr {s s' : St} {tr : List Ev} (h : G s tr) (h1 : s'.task = s.task)
    (h2 : s'.shrQ = s.shrQ) (h3 : s'.uniQ = s.uniQ) : G s' tr := by
  obtain ⟨a, b, c, d, e, f, g, i, j, k, l, m⟩ := h
  constructor <;> simp only [h1, h2, h3] <;> assumption

theorem g_wakeUni {s : St} {tr : List Ev} (h : G s tr) (pu : Nat) :
    G (wakeUni s pu).1 (tr ++ (wakeUni s pu).2) := by
  unfold wakeUni
  split
  · split
    · rename_i u hp
      have hm := pick_mem hp
      obtain ⟨a, b, c, d, e, f, g, i, j, k, l, m⟩ := h
      have hact := (i u).1 hm
      constructor <;>
        simp only [HoldsShr, HoldsUni, BecomingWriter, BecomingReader, WaitsShr, WaitsUni, openIn_concat,
          k.mem_erase_iff] at * <;> try intro t
      · have := a t; grind [upd]
      · have := b t; grind [upd]
      · have := c t; grind [upd]
      · have := d t; grind [upd]
      · have := e t; grind [upd]
      · have := f t; grind [upd]
      · have := g t; grind [upd]
      · have := i t; grind [upd]
      · exact j
      · exact k.erase u
      · have h1 := l t; have h2 := l u; simp only [upd_apply]; split <;> grind
      · have h1 := m t; have h2 := m u; simp only [upd_apply]; split <;> grind
    · simpa using h
  · simpa using h

theorem g_wakeShr {s : St} {tr : List Ev} (h : G s tr) (ps : Nat) :
    G (wakeShr s ps).1 (tr ++ (wakeShr s ps).2) := by
  unfold wakeShr
  split
  · simpa using h
  · split
    · rename_i u hp
      have hm := pick_mem hp
      obtain ⟨a, b, c, d, e, f, g, i, j, k, l, m⟩ := h
      have hact := (g u).1 hm
      constructor <;>
        simp only [HoldsShr, HoldsUni, BecomingWriter, BecomingReader, WaitsShr, WaitsUni, openIn_concat,
          j.mem_erase_iff] at * <;> try intro t
      · have := a t; grind [upd]
      · have := b t; grind [upd]
      · have := c t; grind [upd]
      · have := d t; grind [upd]
      · have := e t; grind [upd]
      · have := f t; grind [upd]
      · have := g t; grind [upd]
      · have := i t; grind [upd]
      · exact j.erase u
      · exact k
      · have h1 := l t; have h2 := l u; simp only [upd_apply]; split <;> grind
      · have h1 := m t; have h2 := m u; simp only [upd_apply]; split <;> grind
    · simpa using h

theorem g_tryWakeUpNext {s : St} {tr : List Ev} (h : G s tr) (ps pu : Nat) :
    G (tryWakeUpNext s ps pu).1 (tr ++ (tryWakeUpNext s ps pu).2) := by
  unfold tryWakeUpNext
  dsimp only
  split
  · exact g_wakeUni h pu
  · have := g_wakeShr (g_wakeUni h pu) ps
    simpa [List.append_assoc] using this

theorem g_release {s : St} {tr : List Ev} (h : G s tr) (ps pu : Nat) :
    G (release s ps pu).1 (tr ++ (release s ps pu).2) := by
  unfold release
  cases hh : s.hold with
  | shr =>
    dsimp only
    split
    · exact g_wakeUni (s := { s with cnt := s.cnt - 1, hold := .no }) (h.congr rfl rfl rfl) pu
    · simp only [List.append_nil]; exact h.congr rfl rfl rfl
  | uni =>
    dsimp only
    have h1 : G { s with hold := .no, writer := none } tr := h.congr rfl rfl rfl
    split
    · exact g_wakeShr h1 ps
    · have := g_wakeUni (g_wakeShr h1 ps) pu
      simpa [List.append_assoc] using this
  | shrDuringUni => simp only [List.append_nil]; exact h.congr rfl rfl rfl
  | no => simpa using h

theorem append_two {α : Type} (tr : List α) (x y : α) : tr ++ [x, y] = (tr ++ [x]) ++ [y] := by simp

theorem g_dropLock {s : St} {tr : List Ev} (h : G s tr) (t : Nat) (k : Kind)
    (hk : (s.task t).act = .none) : G (dropLock s t k) (tr ++ [relEv t k]) := by
  obtain ⟨a, b, c, d, e, f, g, i, j, k', l, m⟩ := h
  cases k <;>
  · simp only [dropLock, relEv]
    constructor <;>
      simp only [HoldsShr, HoldsUni, BecomingWriter, BecomingReader, WaitsShr, WaitsUni, openIn_concat] at * <;>
      try intro v
    · have h1 := a v; simp only [upd_apply]; split <;> grind
    · have h1 := b v; simp only [upd_apply]; split <;> grind
    · have h1 := c v; simp only [upd_apply]; split <;> grind
    · have h1 := d v; simp only [upd_apply]; split <;> grind
    · have h1 := e v; simp only [upd_apply]; split <;> grind
    · have h1 := f v; simp only [upd_apply]; split <;> grind
    · have h1 := g v; simp only [upd_apply]; split <;> grind
    · have h1 := i v; simp only [upd_apply]; split <;> grind
    · exact j
    · exact k'
    · have h1 := l v; simp only [upd_apply]; split <;> grind
    · have h1 := m v; simp only [upd_apply]; split <;> grind

theorem g_step (s : St) (tr : List Ev) (l : Lbl) (s' : St) (e : List Ev)
    (h : G s tr) (hst : step s l = some (s', e)) : G s' (tr ++ e) := by
  unfold step at hst
  split at hst
  · simp at hst
  cases l with
  | wakeNext t ps pu =>
    dsimp only at hst
    split at hst
    · have hg := g_tryWakeUpNext (h.congr (s' := { s with pending := s.pending.erase t }) rfl rfl rfl) ps pu
      simp only [Option.some.injEq] at hst
      rw [hst] at hg
      exact hg
    · simp at hst
  | wakeStale t =>
    dsimp only at hst
    split at hst
    · simp only [Option.some.injEq, Prod.mk.injEq] at hst
      obtain ⟨rfl, rfl⟩ := hst
      obtain ⟨a, b, c, d, e, f, g, i, j, k, l, m⟩ := h
      constructor <;>
        simp only [HoldsShr, HoldsUni, BecomingWriter, BecomingReader, WaitsShr, WaitsUni, openIn_concat] at * <;>
        first | assumption | skip
      all_goals grind
    · simp at hst
  | unlock t k ps pu =>
    dsimp only at hst
    split at hst
    · rename_i hc
      have hg := g_release (g_dropLock h t k hc.1) ps pu
      simp only [Option.some.injEq, Prod.mk.injEq] at hst
      obtain ⟨rfl, rfl⟩ := hst
      simpa [List.append_assoc] using hg
    · simp at hst
  | askShr t =>
    dsimp only at hst
    split at hst
    · rename_i hc
      obtain ⟨a, b, c, d, e, f, g, i, j, k, l, m⟩ := h
      split at hst <;>
      · simp only [Option.some.injEq, Prod.mk.injEq] at hst
        obtain ⟨rfl, rfl⟩ := hst
        try rw [append_two]
        constructor <;>
          simp only [HoldsShr, HoldsUni, BecomingWriter, BecomingReader, WaitsShr, WaitsUni, openIn_concat] at * <;>
          try intro v
        · have := a v; grind [upd]
        · have := b v; grind [upd]
        · have := c v; grind [upd]
        · have := d v; grind [upd]
        · have := e v; grind [upd]
        · have := f v; grind [upd]
        · have := g v; grind [upd]
        · have := i v; grind [upd]
        · exact j
        · exact k
        · have h1 := l v; simp only [upd_apply]; split <;> grind
        · have h1 := m v; simp only [upd_apply]; split <;> grind
    · simp at hst
  | suspShr t =>
    dsimp only at hst
    split at hst
    · rename_i hc
      obtain ⟨a, b, c, d, e, f, g, i, j, k, l, m⟩ := h
      split at hst <;>
      · simp only [Option.some.injEq, Prod.mk.injEq] at hst
        obtain ⟨rfl, rfl⟩ := hst
        try rw [append_two]
        have hnt : t ∉ s.shrQ := by rw [g]; simp [hc]
        constructor <;>
          simp only [HoldsShr, HoldsUni, BecomingWriter, BecomingReader, WaitsShr, WaitsUni, openIn_concat,
            List.mem_append, List.mem_singleton, List.nodup_append] at * <;>
          try intro v
        · have := a v; grind [upd]
        · have := b v; grind [upd]
        · have := c v; grind [upd]
        · have := d v; grind [upd]
        · have := e v; grind [upd]
        · have := f v; grind [upd]
        · have := g v; grind [upd]
        · have := i v; grind [upd]
        · grind
        · exact k
        · have h1 := l v; simp only [upd_apply]; split <;> grind
        · have h1 := m v; simp only [upd_apply]; split <;> grind
    · simp at hst
  | askUni t =>
    dsimp only at hst
    split at hst
    · rename_i hc
      obtain ⟨a, b, c, d, e, f, g, i, j, k, l, m⟩ := h
      simp only [Option.some.injEq, Prod.mk.injEq] at hst
      obtain ⟨rfl, rfl⟩ := hst
      constructor <;>
        simp only [HoldsShr, HoldsUni, BecomingWriter, BecomingReader, WaitsShr, WaitsUni, openIn_concat] at * <;>
        try intro v
      · have := a v; grind [upd]
      · have := b v; grind [upd]
      · have := c v; grind [upd]
      · have := d v; grind [upd]
      · have := e v; grind [upd]
      · have := f v; grind [upd]
      · have := g v; grind [upd]
      · have := i v; grind [upd]
      · exact j
      · exact k
      · have h1 := l v; simp only [upd_apply]; split <;> grind
      · have h1 := m v; simp only [upd_apply]; split <;> grind
    · simp at hst
  | suspUni t =>
    dsimp only at hst
    split at hst
    · rename_i hc
      obtain ⟨a, b, c, d, e, f, g, i, j, k, l, m⟩ := h
      split at hst <;>
      · simp only [Option.some.injEq, Prod.mk.injEq] at hst
        obtain ⟨rfl, rfl⟩ := hst
        try rw [append_two]
        have hnt : t ∉ s.uniQ := by rw [i]; simp [hc]
        constructor <;>
          simp only [HoldsShr, HoldsUni, BecomingWriter, BecomingReader, WaitsShr, WaitsUni, openIn_concat,
            List.mem_append, List.mem_singleton, List.nodup_append] at * <;>
          try intro v
        · have := a v; grind [upd]
        · have := b v; grind [upd]
        · have := c v; grind [upd]
        · have := d v; grind [upd]
        · have := e v; grind [upd]
        · have := f v; grind [upd]
        · have := g v; grind [upd]
        · have := i v; grind [upd]
        · exact j
        · grind
        · have h1 := l v; simp only [upd_apply]; split <;> grind
        · have h1 := m v; simp only [upd_apply]; split <;> grind
    · simp at hst
  | resume t =>
    dsimp only at hst
    obtain ⟨a, b, c, d, e, f, g, i, j, k, l, m⟩ := h
    split at hst
    · rename_i hc
      simp only [Option.some.injEq, Prod.mk.injEq] at hst
      obtain ⟨rfl, rfl⟩ := hst
      constructor <;>
        simp only [HoldsShr, HoldsUni, BecomingWriter, BecomingReader, WaitsShr, WaitsUni, openIn_concat] at * <;>
        try intro v
      · have := a v; grind [upd]
      · have := b v; grind [upd]
      · have := c v; grind [upd]
      · have := d v; grind [upd]
      · have := e v; grind [upd]
      · have := f v; grind [upd]
      · have := g v; grind [upd]
      · have := i v; grind [upd]
      · exact j
      · exact k
      · have h1 := l v; simp only [upd_apply]; split <;> grind
      · have h1 := m v; simp only [upd_apply]; split <;> grind
    · rename_i hc
      simp only [Option.some.injEq, Prod.mk.injEq] at hst
      obtain ⟨rfl, rfl⟩ := hst
      constructor <;>
        simp only [HoldsShr, HoldsUni, BecomingWriter, BecomingReader, WaitsShr, WaitsUni, openIn_concat] at * <;>
        try intro v
      · have := a v; grind [upd]
      · have := b v; grind [upd]
      · have := c v; grind [upd]
      · have := d v; grind [upd]
      · have := e v; grind [upd]
      · have := f v; grind [upd]
      · have := g v; grind [upd]
      · have := i v; grind [upd]
      · exact j
      · exact k
      · have h1 := l v; simp only [upd_apply]; split <;> grind
      · have h1 := m v; simp only [upd_apply]; split <;> grind
    · simp at hst

theorem g_of_reaches {s : St} {tr : List Ev} (h : machine.Reaches s tr) : G s tr :=
  h.inv G g_init g_step

end Verif.SharedMutex
