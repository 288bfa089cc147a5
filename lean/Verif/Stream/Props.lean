import Verif.Stream.Model
import Verif.OpBatch.Props
/-!
# C43, C44, C45, C46, C64
-/

namespace Verif.Stream
open Verif.OpBatch (Ret mkRet errorCode nbytesDelivered ETIME errorCode_mkRet ioret_success_iff)

theorem nbytes_ok (n : Nat) : (nbytesDelivered (mkRet 0 (n : Int))).toNat = n := by
  rw [(ioret_success_iff 0 n).2]; omega

theorem ec_ok (n : Nat) : errorCode (mkRet 0 (n : Int)) = 0 := (errorCode_mkRet 0 n).2 (by omega)

theorem ec_fail (e : Nat) (stale : Int) : errorCode (mkRet stale (-((e : Int) + 1))) ≠ 0 := by
  rw [ne_eq, errorCode_mkRet]; omega

theorem kw_fail {f : File} {o : Nat} {d : Bytes} (e : Nat) (stale : Int) : errorCode (kwrite f o d (.failed e stale)).2 ≠ 0 :=
  ec_fail e stale

/-! ### C43: append_all -/

theorem appendAll_inv (as : List WAns) (f : File) (left : Bytes) (ec : Int) (hf : f.append = true) :
    ∃ pre suf, left = pre ++ suf ∧ (appendAll as f left ec).1.data = f.data ++ pre ∧
      ∀ e, (appendAll as f left ec).2 = some e → suf = [] ∨ e ≠ 0 := by
  induction as generalizing f left ec with
  | nil =>
    cases left with
    | nil => exact ⟨[], [], rfl, by simp [appendAll], by simp⟩
    | cons b bs => exact ⟨[], b :: bs, rfl, by simp [appendAll], by simp [appendAll]⟩
  | cons a as ih =>
    cases left with
    | nil => exact ⟨[], [], rfl, by simp [appendAll], by simp⟩
    | cons b bs =>
      cases a with
      | wrote k =>
        simp only [appendAll, kwrite, ec_ok, nbytes_ok, ne_eq, not_true_eq_false, if_false, hf, if_true]
        obtain ⟨pre, suf, h1, h2, h3⟩ := ih ⟨f.data ++ (b :: bs).take k, true⟩
          ((b :: bs).drop ((b :: bs).take k).length) 0 rfl
        refine ⟨(b :: bs).take k ++ pre, suf, ?_, ?_, h3⟩
        · rw [List.append_assoc, ← h1]
          have : (b :: bs).drop ((b :: bs).take k).length = (b :: bs).drop k := by
            rw [List.length_take]
            rcases Nat.le_total k (b :: bs).length with h | h
            · rw [Nat.min_eq_left h]
            · rw [Nat.min_eq_right h, List.drop_length, List.drop_eq_nil_of_le h]
          rw [this, List.take_append_drop]
        · rw [h2]; simp
      | failed e stale =>
        refine ⟨[], b :: bs, rfl, ?_, ?_⟩
        · rw [appendAll, if_pos (kw_fail e stale)]; simp [kwrite]
        · rw [appendAll, if_pos (kw_fail e stale)]
          intro e' he; right; injection he with he; rw [← he]; exact ec_fail e stale

/-- **C43, proved for files opened with O_APPEND.**  For every pattern of short writes and errors: what append_all adds to the file is a
beginning of the buffer, and all of it if append_all reports success. -/
theorem append_all_append_mode_partial (as : List WAns) (f : File) (buf : Bytes) (hf : f.append = true) :
    ∃ n, (appendAll as f buf 0).1.data = f.data ++ buf.take n ∧
      ((appendAll as f buf 0).2 = some 0 → (appendAll as f buf 0).1.data = f.data ++ buf) := by
  obtain ⟨pre, suf, h1, h2, h3⟩ := appendAll_inv as f buf 0 hf
  refine ⟨pre.length, by rw [h2, h1]; simp, fun h => ?_⟩
  have := (h3 0 h).resolve_right (by simp)
  subst this
  rw [h2, h1]; simp

/-- **C43.**  If no write delivers 0 bytes, append_all returns after at most as many writes as there are bytes. -/
theorem append_all_returns (as : List WAns) (f : File) (buf : Bytes) (ec : Int) (hl : buf.length ≤ as.length)
    (hk : WAns.wrote 0 ∉ as) : (appendAll as f buf ec).2 ≠ none := by
  induction as generalizing f buf ec with
  | nil => cases buf with
    | nil => simp [appendAll]
    | cons b bs => simp at hl
  | cons a as ih =>
    cases buf with
    | nil => simp [appendAll]
    | cons b bs =>
      simp only [appendAll]
      cases a with
      | wrote k =>
        simp only [kwrite, ec_ok, nbytes_ok, ne_eq, not_true_eq_false, if_false]
        have hk0 : k ≠ 0 := by rintro rfl; simp at hk
        apply ih
        · simp only [List.length_drop, List.length_take, List.length_cons] at hl ⊢; omega
        · intro h; exact hk (List.mem_cons_of_mem _ h)
      | failed e stale => rw [if_pos (kw_fail e stale)]; simp

/-- **C43, what fails.**  Writes that deliver 0 bytes are repeated for ever. -/
theorem append_all_spins_refuted (n : Nat) (f : File) (b : UInt8) (bs : Bytes) (ec : Int) :
    (appendAll (List.replicate n (.wrote 0)) f (b :: bs) ec).2 = none := by
  induction n generalizing f ec with
  | zero => simp [appendAll]
  | succ n ih =>
    rw [List.replicate_succ]
    simp only [appendAll, kwrite, List.take_zero, List.length_nil, ec_ok 0, nbytes_ok 0, ne_eq, not_true_eq_false, if_false, List.drop_zero]
    exact ih _ _

/-- **C43, what fails.**  The file was not opened with O_APPEND and is not empty: append_all succeeds with a single write, but
overwrites the beginning of the file. -/
theorem append_all_overwrites_refuted (f : File) (buf : Bytes) (hf : f.append = false) (h1 : f.data ≠ []) (h2 : buf ≠ []) :
    (appendAll [.wrote buf.length] f buf 0).2 = some 0 ∧
    (appendAll [.wrote buf.length] f buf 0).1.data = buf ++ f.data.drop buf.length ∧
    (appendAll [.wrote buf.length] f buf 0).1.data ≠ f.data ++ buf := by
  obtain ⟨b, bs, rfl⟩ := List.exists_cons_of_ne_nil h2
  simp only [appendAll, kwrite, hf, List.take_length, ec_ok, nbytes_ok, ne_eq, not_true_eq_false, if_false, List.drop_length]
  refine ⟨trivial, by simp, ?_⟩
  intro h
  have := congrArg List.length h
  simp at this
  have := List.length_pos_iff.2 h1
  omega

/-- **C43, what fails.**  Even on an empty file, a short write makes append_all write the rest over what it wrote before. -/
theorem append_all_short_write_refuted : ∃ f : File, f.data = [] ∧
    (appendAll [.wrote 1, .wrote 1] f [1, 2] 0).2 = some 0 ∧ (appendAll [.wrote 1, .wrote 1] f [1, 2] 0).1.data = [2] :=
  ⟨⟨[], false⟩, rfl, by decide, by decide⟩

/-! ### C44: filling a buffer -/

theorem poke_append (a b d : Bytes) : poke (a ++ b) a.length d = a ++ d ++ b.drop d.length := by
  simp [poke, List.drop_append]

/-- state of the loop: `w` bytes were delivered from position `o` of the source -/
structure Filling (src : Bytes) (mem0 : Bytes) (o : Nat) (s : RSt) (w : Nat) : Prop where
  le : w ≤ mem0.length
  avail : o + w ≤ src.length ∨ w = 0
  mem : s.mem = (src.drop o).take w ++ mem0.drop w
  wrote : s.wrote = w
  span : s.ec ≠ 0 ∨ s.len = 0 ∨ (s.pos = w ∧ s.len = mem0.length - w)

theorem after_got (n : Nat) (s : RSt) : afterReadOrRecv (mkRet 0 (n : Int)) s =
    { s with wrote := s.wrote + n, pos := s.pos + min n s.len, len := s.len - min n s.len } := by
  unfold afterReadOrRecv; rw [if_pos (ec_ok n), nbytes_ok]

theorem fill_done (offset : Option Nat) (src : Bytes) (as : List (Bool × RAns)) (s : RSt) (h : s.ec ≠ 0 ∨ s.len = 0) :
    fill offset src as s = (s, some s.wrote) := by
  cases as <;> rw [fill, if_pos h]

theorem chunk_length (src : Bytes) (off len k : Nat) :
    (((src.drop off).take len).take k).length = min k (min len (src.length - off)) := by
  simp

theorem fill_inv (offset : Option Nat) (src mem0 : Bytes) (o : Nat) (ho : ∀ x, offset = some x → x = o)
    (as : List (Bool × RAns)) (hl : ∀ t k, (t, RAns.lost k) ∉ as) (ht : ∀ t e, (t, RAns.threw e) ∉ as)
    (s : RSt) (w : Nat) (hs : Filling src mem0 o s w) (hc : offset = none → s.cur = o + w) :
    ∃ w', Filling src mem0 o (fill offset src as s).1 w' ∧ (offset = none → (fill offset src as s).1.cur = o + w') ∧
      ∀ v, (fill offset src as s).2 = some v → v = w' := by
  induction as generalizing s w with
  | nil =>
    rw [fill]
    split
    · exact ⟨w, hs, hc, fun v hv => by injection hv with hv; rw [← hv, hs.wrote]⟩
    · exact ⟨w, hs, hc, by simp⟩
  | cons x as ih =>
    obtain ⟨inTime, a⟩ := x
    rw [fill]
    split
    · exact ⟨w, hs, hc, fun v hv => by injection hv with hv; rw [← hv, hs.wrote]⟩
    rename_i hcond
    simp only [not_or, not_not] at hcond
    have ih' := ih (fun t k h => hl t k (List.mem_cons_of_mem _ h)) (fun t e h => ht t e (List.mem_cons_of_mem _ h))
    simp only
    split
    · exact ⟨w, hs, hc, fun v hv => by injection hv with hv; rw [← hv, hs.wrote]⟩
    have hoff : srcPos offset s = o + w := by
      unfold srcPos
      cases hof : offset with
      | none => simp only; exact hc hof
      | some x => simp only; rw [ho x hof, hs.wrote]
    rw [hoff]
    obtain ⟨hpos, hlen⟩ : s.pos = w ∧ s.len = mem0.length - w := by
      rcases hs.span with h | h | h
      · exact absurd hcond.1 h
      · exact absurd h hcond.2
      · exact h
    cases a with
    | lost k => exact absurd (List.mem_cons_self) (hl inTime k)
    | threw e => exact absurd (List.mem_cons_self) (ht inTime e)
    | failed e stale =>
      simp only
      refine ih' _ w ?_ ?_
      · simp only [afterReadOrRecv, if_neg (ec_fail e stale)]
        split
        · exact ⟨hs.le, hs.avail, hs.mem, hs.wrote, Or.inr (Or.inl rfl)⟩
        · exact ⟨hs.le, hs.avail, hs.mem, hs.wrote, Or.inl (ec_fail e stale)⟩
      · simp only [afterReadOrRecv, if_neg (ec_fail e stale)]
        split <;> exact hc
    | got k =>
      simp only
      generalize hd : ((src.drop (o + w)).take s.len).take k = d
      have hdl : d.length = min k (min s.len (src.length - (o + w))) := by rw [← hd, chunk_length]
      have hdle : d.length ≤ s.len := by omega
      refine ih' _ (w + d.length) ?_ ?_
      · simp only [afterReadOrRecv, if_pos (ec_ok d.length), nbytes_ok]
        have hw := hs.le
        refine ⟨by omega, ?_, ?_, by dsimp only; rw [hs.wrote], Or.inr (Or.inr ⟨by dsimp only; omega, by dsimp only; omega⟩)⟩
        · rcases hs.avail with h | h
          · left; omega
          · by_cases h0 : d.length = 0
            · right; omega
            · left; omega
        · dsimp only
          rw [hs.mem, hpos]
          have hlw : ((src.drop o).take w).length = w := by
            simp only [List.length_take, List.length_drop]
            rcases hs.avail with h | h <;> omega
          have := poke_append ((src.drop o).take w) (mem0.drop w) d
          rw [hlw] at this
          rw [this, List.drop_drop]
          congr 1
          rw [show (src.drop o).take (w + d.length) = (src.drop o).take w ++ ((src.drop o).drop w).take d.length by
            rw [List.take_add]]
          congr 1
          rw [List.drop_drop, ← hd]
          simp only [List.length_take, List.length_drop, List.take_take]
          rw [List.take_eq_take_iff]
          simp
      · intro h; simp only [afterReadOrRecv, if_pos (ec_ok d.length)]; rw [hc h]; omega

theorem fillInit_filling (src mem : Bytes) (o cur : Nat) : Filling src mem o (fillInit mem cur) 0 :=
  ⟨Nat.zero_le _, Or.inr rfl, by simp [fillInit], rfl, Or.inr (Or.inr ⟨rfl, rfl⟩)⟩

/-- The kernel does not lose bytes to a time-out (that is C63) and the operation does not throw. -/
def Orderly (as : List (Bool × RAns)) : Prop := (∀ t k, (t, RAns.lost k) ∉ as) ∧ ∀ t e, (t, RAns.threw e) ∉ as

/-- **C44, recv_fill_buffer.**  For every chunking of the stream, every error, end of stream and time-out: the memory consists of the next
`w` bytes of the stream in order and is otherwise unchanged, exactly these bytes were taken from the stream, and if the function returns, it
returns `w`. -/
theorem recv_fill_contiguous (src mem : Bytes) (cur : Nat) (as : List (Bool × RAns)) (h : Orderly as) :
    ∃ w, w ≤ mem.length ∧ (cur + w ≤ src.length ∨ w = 0) ∧
      (fill none src as (fillInit mem cur)).1.mem = (src.drop cur).take w ++ mem.drop w ∧
      (fill none src as (fillInit mem cur)).1.cur = cur + w ∧
      ∀ v, (fill none src as (fillInit mem cur)).2 = some v → v = w := by
  obtain ⟨w, h1, h2, h3⟩ := fill_inv none src mem cur (by simp) as h.1 h.2 (fillInit mem cur) 0
    (fillInit_filling src mem cur cur) (fun _ => rfl)
  exact ⟨w, h1.le, h1.avail, h1.mem, h2 rfl, h3⟩

/-- **C44, read_fill_buffer.**  The same for a file, from the given offset on. -/
theorem read_fill_contiguous (file mem : Bytes) (offset : Nat) (as : List (Bool × RAns)) (h : Orderly as) :
    ∃ w, w ≤ mem.length ∧ (offset + w ≤ file.length ∨ w = 0) ∧
      (fill (some offset) file as (fillInit mem 0)).1.mem = (file.drop offset).take w ++ mem.drop w ∧
      ∀ v, (fill (some offset) file as (fillInit mem 0)).2 = some v → v = w := by
  obtain ⟨w, h1, -, h3⟩ := fill_inv (some offset) file mem offset (by simp) as h.1 h.2 (fillInit mem 0) 0
    (fillInit_filling file mem offset 0) (by simp)
  exact ⟨w, h1.le, h1.avail, h1.mem, h3⟩

/-- **C44.**  The function returns less than the size of the buffer only for a reason: it reports an error, or the time was up, or an
operation was cut short by the time-out. -/
theorem fill_short_reason (offset : Option Nat) (src : Bytes) (as : List (Bool × RAns)) (hl : Orderly as) (s : RSt) (total : Nat)
    (hinv : s.ec = 0 → s.wrote + s.len = total) (v : Nat) (hv : (fill offset src as s).2 = some v) :
    v = total ∨ (fill offset src as s).1.ec ≠ 0 ∨ (∃ a, (false, a) ∈ as) ∨
      ∃ e stale, (true, RAns.failed e stale) ∈ as ∧ errorCode (mkRet stale (-((e : Int) + 1))) = ETIME := by
  induction as generalizing s with
  | nil =>
    rw [fill] at hv ⊢
    split at hv
    · rename_i hc
      rw [if_pos hc]
      injection hv with hv
      subst hv
      by_cases h0 : s.ec = 0
      · left; have := hinv h0; rcases hc with hc | hc
        · exact absurd h0 hc
        · omega
      · right; left; exact h0
    · simp at hv
  | cons x as ih =>
    obtain ⟨inTime, a⟩ := x
    have hl' : Orderly as := ⟨fun t k h => hl.1 t k (List.mem_cons_of_mem _ h), fun t e h => hl.2 t e (List.mem_cons_of_mem _ h)⟩
    have lift : ∀ {s'}, (s'.ec = 0 → s'.wrote + s'.len = total) → (fill offset src as s').2 = some v →
        v = total ∨ (fill offset src as s').1.ec ≠ 0 ∨ (∃ a', (false, a') ∈ (inTime, a) :: as) ∨
          ∃ e stale, (true, RAns.failed e stale) ∈ (inTime, a) :: as ∧ errorCode (mkRet stale (-((e : Int) + 1))) = ETIME := by
      intro s' h1 h2
      rcases ih hl' s' h1 h2 with h | h | ⟨a', h⟩ | ⟨e, st, h, h'⟩
      · exact Or.inl h
      · exact Or.inr (Or.inl h)
      · exact Or.inr (Or.inr (Or.inl ⟨a', List.mem_cons_of_mem _ h⟩))
      · exact Or.inr (Or.inr (Or.inr ⟨e, st, List.mem_cons_of_mem _ h, h'⟩))
    rw [fill] at hv ⊢
    split at hv
    · rename_i hc
      rw [if_pos hc]
      injection hv with hv
      subst hv
      by_cases h0 : s.ec = 0
      · left; have := hinv h0; rcases hc with hc | hc
        · exact absurd h0 hc
        · omega
      · right; left; exact h0
    · rename_i hc
      rw [if_neg hc]
      simp only [not_or, not_not] at hc
      simp only at hv ⊢
      by_cases hit : inTime = false
      · right; right; left; subst hit; exact ⟨a, by simp⟩
      · rw [if_neg hit] at hv ⊢
        have hit' : inTime = true := by cases inTime <;> simp_all
        cases a with
        | lost k => exact absurd (List.mem_cons_self) (hl.1 inTime k)
        | threw e => exact absurd (List.mem_cons_self) (hl.2 inTime e)
        | failed e stale =>
          simp only at hv ⊢
          simp only [afterReadOrRecv, if_neg (ec_fail e stale)] at hv ⊢
          by_cases het : errorCode (mkRet stale (-((e : Int) + 1))) = ETIME
          · right; right; right; exact ⟨e, stale, by rw [hit']; simp, het⟩
          · rw [if_neg het] at hv ⊢
            exact lift (fun h => absurd h (ec_fail e stale)) hv
        | got k =>
          simp only at hv ⊢
          generalize hd : ((src.drop (srcPos offset s)).take s.len).take k = d at hv ⊢
          have hdle : d.length ≤ s.len := by rw [← hd, chunk_length]; omega
          refine lift ?_ hv
          intro _
          simp only [afterReadOrRecv, if_pos (ec_ok d.length), nbytes_ok]
          have := hinv hc.1
          omega

/-- **C44.**  recv_fill_buffer and read_fill_buffer return the size of the buffer unless they report an error or the time was up. -/
theorem fill_success_is_full (offset : Option Nat) (src mem : Bytes) (cur : Nat) (as : List (Bool × RAns)) (hl : Orderly as) (v : Nat)
    (hv : (fill offset src as (fillInit mem cur)).2 = some v) (hec : (fill offset src as (fillInit mem cur)).1.ec = 0)
    (htime : ∀ a, (false, a) ∉ as)
    (hnt : ∀ e stale, (true, RAns.failed e stale) ∈ as → errorCode (mkRet stale (-((e : Int) + 1))) ≠ ETIME) :
    v = mem.length := by
  rcases fill_short_reason offset src as hl (fillInit mem cur) mem.length (by simp [fillInit]) v hv with h | h | ⟨a, h⟩ | ⟨e, st, h, h'⟩
  · exact h
  · exact absurd hec h
  · exact absurd h (htime a)
  · exact absurd h' (hnt e st h)

/-- **C44.**  While the source has bytes left and every operation delivers at least one of them (or fails), the function returns after at most as
many operations as the buffer has bytes. -/
theorem recv_fill_returns (src : Bytes) (as : List (Bool × RAns)) (s : RSt) (hlen : s.len ≤ as.length)
    (hk : ∀ t k, (t, RAns.got k) ∈ as → k ≠ 0) (hl : ∀ t k, (t, RAns.lost k) ∉ as) (havail : s.cur + s.len ≤ src.length) :
    (fill none src as s).2 ≠ none := by
  induction as generalizing s with
  | nil =>
    rw [fill]
    simp at hlen
    rw [if_pos (Or.inr hlen)]; simp
  | cons x as ih =>
    obtain ⟨inTime, a⟩ := x
    rw [fill]
    split
    · simp
    rename_i hc
    simp only [not_or, not_not] at hc
    simp only
    split
    · simp
    have hk' : ∀ t k, (t, RAns.got k) ∈ as → k ≠ 0 := fun t k h => hk t k (List.mem_cons_of_mem _ h)
    have hl' : ∀ t k, (t, RAns.lost k) ∉ as := fun t k h => hl t k (List.mem_cons_of_mem _ h)
    cases a with
    | lost k => exact absurd (List.mem_cons_self) (hl inTime k)
    | threw e => simp
    | failed e stale =>
      simp only
      simp only [afterReadOrRecv, if_neg (ec_fail e stale)]
      split
      · rw [fill_done _ _ _ _ (Or.inr rfl)]; simp
      · rw [fill_done _ _ _ _ (Or.inr rfl)]; simp
    | got k =>
      simp only
      have hk0 := hk inTime k (by simp)
      rw [show srcPos none s = s.cur from rfl]
      generalize hd : ((src.drop s.cur).take s.len).take k = d
      have hdl : d.length = min k (min s.len (src.length - s.cur)) := by rw [← hd, chunk_length]
      refine ih _ ?_ hk' hl' ?_
      · rw [after_got]; dsimp only
        simp only [List.length_cons] at hlen
        omega
      · rw [after_got]; dsimp only
        omega

/-- **C44, what fails.**  At the end of the stream (or file) the function spins until the time is up, with the default time-out for ever. -/
theorem fill_spins_at_eof_refuted (n : Nat) (offset : Option Nat) (src : Bytes) (b : UInt8) (mem : Bytes) (cur : Nat) :
    (fill offset src (List.replicate n (true, .got 0)) (fillInit (b :: mem) cur)).2 = none := by
  suffices h : ∀ s : RSt, s.ec = 0 → s.len ≠ 0 → (fill offset src (List.replicate n (true, .got 0)) s).2 = none from
    h _ rfl (by simp [fillInit])
  induction n with
  | zero => intro s h1 h2; rw [List.replicate_zero, fill]; simp [h1, h2]
  | succ n ih =>
    intro s h1 h2
    rw [List.replicate_succ, fill]
    simp only [h1, h2, ne_eq, not_true_eq_false, or_self, if_false, Bool.true_eq_false]
    refine ih _ ?_ ?_
    · simp only [List.take_zero, List.length_nil]; rw [after_got]
    · simp only [List.take_zero, List.length_nil]; rw [after_got]; simpa using h2

/-- **C44, what fails.**  With a time-out: bytes that arrive at the moment the time-out expires are taken from the stream and not counted; the
next call continues after them. -/
theorem recv_fill_loses_bytes_refuted : ∃ (src : Bytes) (as : List (Bool × RAns)),
    (fill none src as (fillInit [0, 0] 0)).2 = some 0 ∧ (fill none src as (fillInit [0, 0] 0)).1.ec = 0 ∧
    (fill none src as (fillInit [0, 0] 0)).1.cur = 2 :=
  ⟨[7, 8, 9], [(true, .lost 2)], by decide, by decide, by decide⟩

/-! ### C45, C64: unique_file_state -/

/-- **C45, proved without short writes.**  If every write is complete, append_async adds the buffer exactly once. -/
theorem append_async_full_writes_partial (f : File) (buf : Bytes) (hf : f.append = true) (hb : buf ≠ []) (hlt : buf.length < 2 ^ 64)
    (k : Nat) (hk : buf.length ≤ k) (as : List WAns) :
    (appendAsync (.wrote k :: as) f buf buf.length 0).2 = some 0 ∧
    (appendAsync (.wrote k :: as) f buf buf.length 0).1.data = f.data ++ buf := by
  have hne : buf.length ≠ 0 := by simpa using hb
  rw [appendAsync, if_neg hne]
  simp only [kwrite, hf, if_true, List.take_of_length_le hk, ec_ok, nbytes_ok, ne_eq, not_true_eq_false, if_false]
  have : (buf.length + (2 ^ 64 - buf.length)) % 2 ^ 64 = 0 := by
    rw [show buf.length + (2 ^ 64 - buf.length) = 2 ^ 64 by omega]
  rw [this]
  cases as <;> simp [appendAsync]

/-- **C45.**  A failing first write changes nothing and is reported. -/
theorem append_async_error (f : File) (buf : Bytes) (hb : buf ≠ []) (e : Nat) (stale : Int) (as : List WAns) :
    ∃ ec, ec ≠ 0 ∧ (appendAsync (.failed e stale :: as) f buf buf.length 0) = (f, some ec) := by
  have hne : buf.length ≠ 0 := by simpa using hb
  refine ⟨_, ec_fail e stale, ?_⟩
  rw [appendAsync, if_neg hne]
  rw [if_pos (kw_fail e stale)]; rfl

/-- **C45, what fails.**  After a short write the buffer is written from its beginning again: bytes are duplicated and lost, and success is
reported. -/
theorem append_async_short_write_refuted : ∃ f : File, f.append = true ∧
    (appendAsync [.wrote 1, .wrote 1] f [1, 2] 2 0).2 = some 0 ∧ (appendAsync [.wrote 1, .wrote 1] f [1, 2] 2 0).1.data = [1, 1] :=
  ⟨⟨[], true⟩, rfl, by decide, by decide⟩

/-- **C45, what fails.**  If the second write is complete, the counter wraps around and the function goes on writing. -/
theorem append_async_wraps_refuted : ∃ f : File, f.append = true ∧
    (appendAsync [.wrote 2, .wrote 3, .wrote 3] f [1, 2, 3] 3 0).2 = none ∧
    (appendAsync [.wrote 2, .wrote 3, .wrote 3] f [1, 2, 3] 3 0).1.data = [1, 2, 1, 2, 3, 1, 2, 3] :=
  ⟨⟨[], true⟩, rfl, by decide, by decide⟩

/-- **C64, what fails.**  Whatever the path and whatever files exist, the constructor of unique_file_state throws; and no flags are given that would
allow writing. -/
theorem unique_file_state_refuted (fileExists : String → Bool) (h : fileExists "" = false) (path : String) :
    construct fileExists path = none ∧ ∀ p w, kopen (fun _ => true) (movedFrom path) false = some (p, w) → p ≠ path ∨ w = false := by
  refine ⟨by simp [construct, kopen, movedFrom, h], ?_⟩
  intro p w hh
  simp [kopen] at hh
  exact Or.inr hh.2

/-! ### C46: protobuf messages -/

theorem decode_bigEndian (n : Nat) (h : n < 2 ^ 32) : decodeBE (bigEndian n) = n := by
  simp only [decodeBE, bigEndian, List.map_cons, List.map_nil, List.foldl_cons, List.foldl_nil, UInt8.toNat_ofNat']
  omega

theorem ksend_wrote (wire d : Bytes) (k : Nat) :
    ksend wire d (.wrote k) = (wire ++ d.take k, mkRet 0 ((d.take k).length : Nat)) := rfl

/-- **C46, sending.**  If the length prefix is taken by the kernel in one piece and no error other than a few time-outs happens, then for every chunking
of the body exactly the frame of the message is on the wire when send_pb_message returns, and it returns true. -/
theorem send_body_whole (as : List WAns) (wire left : Bytes) (r : Nat) (hok : ∀ e st, WAns.failed e st ∉ as)
    (hr : r ≤ 10) (h : (sendBody as wire left r).2 ≠ none) : (sendBody as wire left r).1 = wire ++ left := by
  induction as generalizing wire left with
  | nil =>
    rw [sendBody] at h ⊢
    by_cases hl : left = []
    · simp [hl]
    · have : ¬ (left = [] ∨ r > 10) := by rintro (h | h); exact hl h; omega
      rw [if_neg this] at h; simp at h
  | cons a as ih =>
    rw [sendBody] at h ⊢
    by_cases hl : left = []
    · simp [hl]
    have hn : ¬ (left = [] ∨ r > 10) := by rintro (h | h); exact hl h; omega
    rw [if_neg hn] at h ⊢
    cases a with
    | failed e st => exact absurd (List.mem_cons_self) (hok e st)
    | wrote k =>
      simp only [ksend_wrote, ec_ok, ne_eq, not_true_eq_false, false_and, if_false, if_true, nbytes_ok] at h ⊢
      rw [ih _ _ (fun e st hh => hok e st (List.mem_cons_of_mem _ hh)) h, List.append_assoc]
      congr 1
      have : left.drop (left.take k).length = left.drop k := by
        rw [List.length_take]
        rcases Nat.le_total k left.length with h | h
        · rw [Nat.min_eq_left h]
        · rw [Nat.min_eq_right h, List.drop_length, List.drop_eq_nil_of_le h]
      rw [this, List.take_append_drop]

theorem bigEndian_length (n : Nat) : (bigEndian n).length = 4 := rfl

/-- **C46, sending, proved for sends without errors and an unbroken prefix.** -/
theorem send_pb_frames_partial (F : Format) (m : F.Msg) (hm : F.initialized m = true) (hsz : (F.ser m).length < 2 ^ 32)
    (as : List WAns) (hok : ∀ e st, WAns.failed e st ∉ as) (k : Nat) (hk : 4 ≤ k) (wire : Bytes) (r : Bool)
    (hr : (sendPb F m (.wrote k :: as) wire).2 = some r) :
    (sendPb F m (.wrote k :: as) wire).1 = wire ++ frame F m ∧ r = true := by
  simp only [sendPb, hm, Bool.true_eq_false, if_false, sendPrefix, ksend_wrote, Nat.mod_eq_of_lt hsz] at hr ⊢
  rw [if_neg (by omega)] at hr ⊢
  have htk : (bigEndian (F.ser m).length).take k = bigEndian (F.ser m).length := List.take_of_length_le (by rw [bigEndian_length]; exact hk)
  rw [htk] at hr ⊢
  rw [if_neg (by rw [ec_ok]; simp [ETIME])] at hr ⊢
  simp only at hr ⊢
  cases hb : (sendBody as (wire ++ bigEndian (F.ser m).length) (F.ser m) 0).2 with
  | none => rw [hb] at hr; simp at hr
  | some u =>
    rw [hb] at hr
    simp at hr
    refine ⟨?_, hr⟩
    rw [send_body_whole as _ _ 0 hok (by omega) (by rw [hb]; simp), frame, List.append_assoc]

/-- **C46, what fails.**  The connection breaks after the prefix: true is returned although the message was not delivered. -/
theorem send_pb_true_on_error_refuted (F : Format) (m : F.Msg) (hm : F.initialized m = true) (hne : F.ser m ≠ []) (wire : Bytes) :
    (sendPb F m [.wrote 4, .failed 103 0] wire).2 = some true ∧
    (sendPb F m [.wrote 4, .failed 103 0] wire).1 = wire ++ bigEndian ((F.ser m).length % 2 ^ 32) := by
  have h1 : (bigEndian ((F.ser m).length % 2 ^ 32)).take 4 = bigEndian ((F.ser m).length % 2 ^ 32) := List.take_of_length_le (by rw [bigEndian_length]; exact Nat.le_refl _)
  simp only [sendPb, hm, Bool.true_eq_false, if_false, sendPrefix, ksend_wrote, h1]
  rw [if_neg (by omega), if_neg (by rw [ec_ok]; simp [ETIME])]
  simp only
  rw [sendBody, if_neg (by simp [hne])]
  simp [ksend, mkRet, errorCode, ETIME]

/-- **C46, what fails.**  The kernel takes the prefix in two pieces: the second piece is never sent. -/
theorem send_pb_split_prefix_refuted (F : Format) (m : F.Msg) (hm : F.initialized m = true) (hne : F.ser m ≠ []) (wire : Bytes) :
    (sendPb F m [.wrote 2, .wrote (F.ser m).length] wire).2 = some true ∧
    (sendPb F m [.wrote 2, .wrote (F.ser m).length] wire).1 =
      wire ++ (bigEndian ((F.ser m).length % 2 ^ 32)).take 2 ++ F.ser m := by
  have hp : sendPrefix [.wrote 2, .wrote (F.ser m).length] wire (bigEndian ((F.ser m).length % 2 ^ 32)) 0
      = (wire ++ (bigEndian ((F.ser m).length % 2 ^ 32)).take 2, some (true, [.wrote (F.ser m).length])) := by
    rw [sendPrefix]
    simp only [ksend_wrote]
    simp [bigEndian_length, mkRet, errorCode, ETIME]
  simp only [sendPb, hm, Bool.true_eq_false, if_false, hp]
  rw [sendBody, if_neg (by simp [hne])]
  simp only [ksend_wrote, List.take_length, ec_ok, ne_eq, not_true_eq_false, false_and, if_false, if_true, nbytes_ok, List.drop_length]
  rw [sendBody]
  simp

/-- In time, without errors and thrown exceptions: the kernel hands out the stream in any chunks. -/
def Smooth (as : List (Bool × RAns)) : Prop := ∀ x ∈ as, ∃ k, x = (true, RAns.got k)

theorem Smooth.orderly {as : List (Bool × RAns)} (h : Smooth as) : Orderly as := by
  constructor
  · intro t k hh; obtain ⟨k', hk⟩ := h _ hh; simp at hk
  · intro t k hh; obtain ⟨k', hk⟩ := h _ hh; simp at hk

theorem smooth_ec (offset : Option Nat) (src : Bytes) (as : List (Bool × RAns)) (h : Smooth as) (s : RSt) (hs : s.ec = 0) :
    (fill offset src as s).1.ec = 0 := by
  induction as generalizing s with
  | nil => rw [fill]; split <;> exact hs
  | cons x as ih =>
    obtain ⟨k, rfl⟩ := h x (by simp)
    rw [fill]
    split
    · exact hs
    · simp only [Bool.true_eq_false, if_false]
      apply ih (fun y hy => h y (List.mem_cons_of_mem _ hy))
      simp only [afterReadOrRecv, if_pos (ec_ok _)]; exact hs

/-- a fill without errors that returns has filled the whole buffer with the next bytes of the stream -/
theorem smooth_fill (src mem : Bytes) (cur : Nat) (as : List (Bool × RAns)) (h : Smooth as) (v : Nat)
    (hv : (fill none src as (fillInit mem cur)).2 = some v) :
    v = mem.length ∧ (fill none src as (fillInit mem cur)).1.mem = (src.drop cur).take mem.length ∧
      (fill none src as (fillInit mem cur)).1.cur = cur + mem.length ∧ (fill none src as (fillInit mem cur)).1.ec = 0 := by
  have hec := smooth_ec none src as h (fillInit mem cur) rfl
  have hfull := fill_success_is_full none src mem cur as h.orderly v hv hec
    (by intro a ha; obtain ⟨k, hk⟩ := h _ ha; simp at hk)
    (by intro e st ha; obtain ⟨k, hk⟩ := h _ ha; simp at hk)
  obtain ⟨w, h1, h2, h3, h4, h5⟩ := recv_fill_contiguous src mem cur as h.orderly
  have := h5 v hv
  subst this
  refine ⟨hfull, ?_, by rw [h4, hfull], hec⟩
  rw [h3, hfull]; simp

/-- **C46, receiving.**  The stream contains the frame of `m` at the current position.  For every chunking of the stream: when
recv_pb_message returns, it has decoded `m` and consumed exactly its frame. -/
theorem recv_pb_decodes (F : Format) (hF : F.Lossless) (m : F.Msg) (hm : F.initialized m = true) (hsz : (F.ser m).length < 2 ^ 32)
    (before after : Bytes) (as1 as2 : List (Bool × RAns)) (h1 : Smooth as1) (h2 : Smooth as2) (out : Option F.Msg)
    (hout : (recvPb F (before ++ frame F m ++ after) as1 as2 before.length).2 = some out) :
    out = some m ∧ (recvPb F (before ++ frame F m ++ after) as1 as2 before.length).1 = before.length + (frame F m).length := by
  generalize hsrc : before ++ frame F m ++ after = src at hout ⊢
  simp only [recvPb] at hout ⊢
  cases hp : (fill none src as1 (fillInit [0, 0, 0, 0] before.length)).2 with
  | none => rw [hp] at hout; simp at hout
  | some v =>
    rw [hp] at hout
    simp only at hout ⊢
    obtain ⟨-, p2, p3, p4⟩ := smooth_fill src [0, 0, 0, 0] before.length as1 h1 v hp
    rw [if_neg (by simp [p4])] at hout ⊢
    have hmem : (fill none src as1 (fillInit [0, 0, 0, 0] before.length)).1.mem = bigEndian (F.ser m).length := by
      rw [p2, ← hsrc, frame]
      simp [bigEndian]
    rw [hmem, decode_bigEndian _ hsz, p3] at hout ⊢
    cases hq : (fill none src as2 (fillInit (List.replicate (F.ser m).length 0) (before.length + [0, 0, 0, (0 : UInt8)].length))).2 with
    | none => rw [hq] at hout; simp at hout
    | some v2 =>
      rw [hq] at hout
      simp only at hout ⊢
      obtain ⟨q1, q2, q3, q4⟩ := smooth_fill src _ _ as2 h2 v2 hq
      rw [if_neg (by rw [q4, q1]; simp)] at hout ⊢
      simp only [Option.some.injEq] at hout
      refine ⟨?_, ?_⟩
      · rw [← hout, q2, ← hsrc]
        have : List.take (List.replicate (F.ser m).length (0 : UInt8)).length
            (List.drop (before.length + [0, 0, 0, (0 : UInt8)].length) (before ++ frame F m ++ after)) = F.ser m := by
          rw [List.length_replicate, List.append_assoc, List.drop_append, List.drop_eq_nil_of_le (by omega)]
          simp [frame, bigEndian]
        rw [this]
        exact hF m hm
      · rw [q3]; simp [frame, bigEndian_length]; omega

/-- **C46.**  For every chunking, every error, end of stream and time-out: if recv_pb_message returns true, then it decoded exactly the `n` bytes of the stream
that follow the prefix, where `n` is the number in the prefix; the part of the prefix that did not arrive in time counts as zero. -/
theorem recv_pb_never_truncated (F : Format) (src : Bytes) (as1 as2 : List (Bool × RAns)) (h1 : Orderly as1) (h2 : Orderly as2)
    (cur : Nat) (m : F.Msg) (hout : (recvPb F src as1 as2 cur).2 = some (some m)) :
    ∃ w n, w ≤ 4 ∧ n = decodeBE ((src.drop cur).take w ++ List.replicate (4 - w) 0) ∧ (n = 0 ∨ cur + w + n ≤ src.length) ∧
      F.parse ((src.drop (cur + w)).take n) = some m ∧ (recvPb F src as1 as2 cur).1 = cur + w + n := by
  obtain ⟨w, p1, -, p3, p4, -⟩ := recv_fill_contiguous src [0, 0, 0, 0] cur as1 h1
  simp only [recvPb] at hout ⊢
  cases hp : (fill none src as1 (fillInit [0, 0, 0, 0] cur)).2 with
  | none => rw [hp] at hout; simp at hout
  | some v =>
    rw [hp] at hout
    simp only at hout ⊢
    split at hout
    · simp at hout
    · rename_i hec
      rw [if_neg hec]
      have hz : [0, 0, 0, (0 : UInt8)].drop w = List.replicate (4 - w) 0 :=
        show (List.replicate 4 (0 : UInt8)).drop w = _ from List.drop_replicate
      rw [p3, p4, hz] at hout ⊢
      generalize hn : decodeBE ((src.drop cur).take w ++ List.replicate (4 - w) 0) = n at hout ⊢
      obtain ⟨w2, q1, q2, q3, q4, q5⟩ := recv_fill_contiguous src (List.replicate n 0) (cur + w) as2 h2
      cases hq : (fill none src as2 (fillInit (List.replicate n 0) (cur + w))).2 with
      | none => rw [hq] at hout; simp at hout
      | some v2 =>
        rw [hq] at hout
        simp only at hout ⊢
        split at hout
        · simp at hout
        · rename_i hec2
          rw [if_neg hec2]
          simp only [not_or, not_not] at hec2
          have hw2 : w2 = n := by rw [← q5 v2 hq]; exact hec2.2
          simp only [Option.some.injEq] at hout
          refine ⟨w, n, by simpa using p1, hn.symm, ?_, ?_, ?_⟩
          · rw [← hw2]; rcases q2 with h | h
            · exact Or.inr h
            · exact Or.inl h
          · rw [q3, hw2] at hout; simpa using hout
          · rw [q4, hw2]

/-- consecutive calls of recv_pb_message on one stream: the result of every call (`none` = false was returned); `none`: some call did not return -/
def recvAll (F : Format) (src : Bytes) : List (List (Bool × RAns) × List (Bool × RAns)) → Nat → Option (List (Option F.Msg))
  | [], _ => some []
  | (a, b) :: calls, cur =>
    match (recvPb F src a b cur).2 with
    | some r => (recvAll F src calls (recvPb F src a b cur).1).map (r :: ·)
    | none => none

/-- consecutive calls of send_pb_message on one socket: the bytes on the wire; `none`: some call did not return -/
def sendAll (F : Format) : List (F.Msg × List WAns) → Bytes → Option Bytes
  | [], wire => some wire
  | (m, as) :: calls, wire =>
    match (sendPb F m as wire).2 with
    | some _ => sendAll F calls (sendPb F m as wire).1
    | none => none

/-- Answers to the calls of one send_pb_message: the prefix is taken in one piece, no errors; the body is taken in any chunks. -/
def SendOk : List WAns → Prop
  | .wrote k :: as => 4 ≤ k ∧ ∀ e st, WAns.failed e st ∉ as
  | _ => False

theorem recv_all_decodes (F : Format) (hF : F.Lossless) (ms : List F.Msg)
    (hm : ∀ m ∈ ms, F.initialized m = true ∧ (F.ser m).length < 2 ^ 32)
    (calls : List (List (Bool × RAns) × List (Bool × RAns))) (hlen : calls.length = ms.length)
    (hs : ∀ c ∈ calls, Smooth c.1 ∧ Smooth c.2) (before after : Bytes) (rs : List (Option F.Msg))
    (hret : recvAll F (before ++ (ms.map (frame F)).flatten ++ after) calls before.length = some rs) : rs = ms.map some := by
  induction ms generalizing calls before rs with
  | nil => simp at hlen; subst hlen; simp [recvAll] at hret; simp [hret]
  | cons m ms ih =>
    match calls, hlen with
    | (a, b) :: calls, hlen =>
      simp only [List.length_cons, Nat.add_right_cancel_iff] at hlen
      have hsrc : before ++ ((m :: ms).map (frame F)).flatten ++ after
          = before ++ frame F m ++ ((ms.map (frame F)).flatten ++ after) := by simp
      have hsrc2 : before ++ ((m :: ms).map (frame F)).flatten ++ after
          = (before ++ frame F m) ++ (ms.map (frame F)).flatten ++ after := by simp
      obtain ⟨m1, m2⟩ := hm m (by simp)
      obtain ⟨s1, s2⟩ := hs (a, b) (by simp)
      rw [recvAll] at hret
      cases ho : (recvPb F (before ++ ((m :: ms).map (frame F)).flatten ++ after) a b before.length).2 with
      | none => rw [ho] at hret; simp at hret
      | some out =>
        rw [ho] at hret
        simp only [Option.map_eq_some_iff] at hret
        obtain ⟨rs', hret, rfl⟩ := hret
        rw [hsrc] at ho
        obtain ⟨h1, h2⟩ := recv_pb_decodes F hF m m1 m2 before _ a b s1 s2 out ho
        subst h1
        rw [← hsrc] at h2
        rw [h2, hsrc2, show before.length + (frame F m).length = (before ++ frame F m).length by simp] at hret
        rw [ih (fun x hx => hm x (List.mem_cons_of_mem _ hx)) calls hlen (fun c hc => hs c (List.mem_cons_of_mem _ hc))
          (before ++ frame F m) rs' hret]
        rfl

theorem send_all_frames (F : Format) (calls : List (F.Msg × List WAns))
    (hm : ∀ c ∈ calls, F.initialized c.1 = true ∧ (F.ser c.1).length < 2 ^ 32 ∧ SendOk c.2) (before wire : Bytes)
    (hret : sendAll F calls before = some wire) : wire = before ++ ((calls.map Prod.fst).map (frame F)).flatten := by
  induction calls generalizing before with
  | nil => simp [sendAll] at hret; simp [hret]
  | cons c calls ih =>
    obtain ⟨m, as⟩ := c
    obtain ⟨h1, h2, h3⟩ := hm (m, as) (by simp)
    match as, h3 with
    | .wrote k :: as, h3 =>
      rw [sendAll] at hret
      cases hr : (sendPb F m (.wrote k :: as) before).2 with
      | none => rw [hr] at hret; simp at hret
      | some r =>
        rw [hr] at hret
        simp only at hret
        rw [(send_pb_frames_partial F m h1 h2 as h3.2 k h3.1 before r hr).1] at hret
        rw [ih (fun c hc => hm c (List.mem_cons_of_mem _ hc)) _ hret]
        simp

/-- **C46, round trip.**  Any number of messages sent one after the other are received as the same messages in the same order, for every chunking
of the bodies by the sending kernel and every chunking at all by the receiving kernel, whenever the calls return. -/
theorem pb_round_trip_partial (F : Format) (hF : F.Lossless) (sends : List (F.Msg × List WAns))
    (hm : ∀ c ∈ sends, F.initialized c.1 = true ∧ (F.ser c.1).length < 2 ^ 32 ∧ SendOk c.2)
    (wire : Bytes) (hsent : sendAll F sends [] = some wire) (after : Bytes)
    (calls : List (List (Bool × RAns) × List (Bool × RAns))) (hlen : calls.length = sends.length)
    (hs : ∀ c ∈ calls, Smooth c.1 ∧ Smooth c.2) (rs : List (Option F.Msg))
    (hret : recvAll F (wire ++ after) calls 0 = some rs) : rs = sends.map fun c => some c.1 := by
  have hw := send_all_frames F sends hm [] wire hsent
  have := recv_all_decodes F hF (sends.map Prod.fst)
    (by intro m h; obtain ⟨c, hc, rfl⟩ := List.mem_map.1 h; exact ⟨(hm c hc).1, (hm c hc).2.1⟩)
    calls (by simpa using hlen) hs [] after rs (by rw [← hw]; exact hret)
  rw [this, List.map_map]; rfl

/-- **C46.**  recv_pb_message does return: if the frame is there, and the kernel answers 4 receives resp. as many as the message has bytes, each
with at least one byte, it returns. -/
theorem recv_pb_returns (F : Format) (m : F.Msg) (hsz : (F.ser m).length < 2 ^ 32) (before after : Bytes)
    (as1 as2 : List (Bool × RAns)) (h1 : Smooth as1) (h2 : Smooth as2)
    (hk1 : ∀ t k, (t, RAns.got k) ∈ as1 → k ≠ 0) (hk2 : ∀ t k, (t, RAns.got k) ∈ as2 → k ≠ 0)
    (hl1 : 4 ≤ as1.length) (hl2 : (F.ser m).length ≤ as2.length) :
    (recvPb F (before ++ frame F m ++ after) as1 as2 before.length).2 ≠ none := by
  generalize hsrc : before ++ frame F m ++ after = src
  have hsl : src.length = before.length + 4 + (F.ser m).length + after.length := by
    rw [← hsrc]; simp [frame, bigEndian_length]; omega
  have hr1 := recv_fill_returns src as1 (fillInit [0, 0, 0, 0] before.length) (by simpa [fillInit] using hl1) hk1 h1.orderly.1
    (by simp [fillInit]; omega)
  simp only [recvPb]
  cases hp : (fill none src as1 (fillInit [0, 0, 0, 0] before.length)).2 with
  | none => exact absurd hp hr1
  | some v =>
    simp only
    obtain ⟨-, p2, p3, p4⟩ := smooth_fill src [0, 0, 0, 0] before.length as1 h1 v hp
    rw [if_neg (by simp [p4])]
    have hmem : (fill none src as1 (fillInit [0, 0, 0, 0] before.length)).1.mem = bigEndian (F.ser m).length := by
      rw [p2, ← hsrc, frame]; simp [bigEndian]
    rw [hmem, decode_bigEndian _ hsz, p3]
    have hr2 := recv_fill_returns src as2
      (fillInit (List.replicate (F.ser m).length 0) (before.length + [0, 0, 0, (0 : UInt8)].length))
      (by simpa [fillInit] using hl2) hk2 h2.orderly.1 (by simp [fillInit]; omega)
    cases hq : (fill none src as2 (fillInit (List.replicate (F.ser m).length 0) (before.length + [0, 0, 0, (0 : UInt8)].length))).2 with
    | none => exact absurd hq hr2
    | some v2 => simp only; split <;> simp

/-- **C46, what fails.**  Nothing arrives within the first minute: recv_pb_message goes on with length 0 and returns true with an empty message. -/
theorem recv_pb_nothing_arrived_refuted (F : Format) (m : F.Msg) (h : F.parse [] = some m) (src : Bytes) (cur : Nat) :
    recvPb F src [(false, .got 0)] [] cur = (cur, some (some m)) := by
  have h1 : fill none src [(false, .got 0)] (fillInit [0, 0, 0, 0] cur) = (fillInit [0, 0, 0, 0] cur, some 0) := by
    rw [fill]; simp [fillInit]
  simp only [recvPb, h1]
  have h2 : decodeBE (fillInit [0, 0, 0, 0] cur).mem = 0 := by simp [fillInit, decodeBE]
  rw [h2]
  have h3 : fill none src [] (fillInit (List.replicate 0 0) (fillInit [0, 0, 0, 0] cur).cur) = (fillInit [] cur, some 0) := by
    rw [fill]; simp [fillInit]
  rw [h3]
  simp [fillInit, h]

/-! ### The hypotheses are met -/

/-- strings of bytes as messages -/
@[reducible] def bytesFormat : Format := ⟨Bytes, fun _ => true, id, some⟩

example : bytesFormat.Lossless := fun _ _ => rfl
example : (sendPb bytesFormat [5, 6, 7] [.wrote 4, .wrote 1, .wrote 9] []) = ([0, 0, 0, 3, 5, 6, 7], some true) := by decide
example : recvAll bytesFormat [0, 0, 0, 2, 8, 9, 0, 0, 0, 1, 4]
    [([(true, .got 3), (true, .got 3)], [(true, .got 1), (true, .got 5)]), ([(true, .got 4)], [(true, .got 1)])] 0
    = some [some [8, 9], some [4]] := by decide
example : sendAll bytesFormat [([8, 9], [.wrote 4, .wrote 1, .wrote 1]), ([4], [.wrote 9, .wrote 1])] []
    = some [0, 0, 0, 2, 8, 9, 0, 0, 0, 1, 4] := by decide
example : (appendAll [.wrote 2, .failed 4 0] ⟨[1], true⟩ [2, 3, 4] 0).1.data = [1, 2, 3] := by decide
example : (fill (some 1) [1, 2, 3, 4, 5] [(true, .got 2), (true, .got 9)] (fillInit [0, 0, 0] 0)).1.mem = [2, 3, 4] := by decide

end Verif.Stream
