/-!
# The `"ip:port"_tcp_s` literal (src/tcp_server.cc 22-33), property C54

Strings are lists of characters.  `make` stands for toolpex::ip_address::make (not part of this repository): `none` means it throws.
-/

namespace Verif.TcpServer.Literal

inductive Result (Addr : Type) where
  | server (a : Addr) (port : Nat)
  | portRequired           -- koios::exception "port is required"
  | badAddress             -- ip_address::make throws
  | undefined              -- atoi: value not representable (C standard 7.24.1)
  deriving DecidableEq, Repr

/-- std::string_view::rfind(c) (25): index of the last occurrence -/
def rfind (c : Char) : List Char → Option Nat
  | [] => none
  | x :: xs =>
    match rfind c xs with
    | some i => some (i + 1)
    | none => if x = c then some 0 else none

/-- isspace in the C locale -/
def isSpace (c : Char) : Bool := c = ' ' || c = '\t' || c = '\n' || c = '\x0b' || c = '\x0c' || c = '\x0d'

/-- the value of the leading digits -/
def digitsValue (s : List Char) : Nat := (s.takeWhile Char.isDigit).foldl (fun n c => 10 * n + (c.toNat - 48)) 0

/-- an optional sign, then digits -/
def signedValue : List Char → Int
  | [] => 0
  | c :: ds => if c = '-' then - (digitsValue ds : Int) else if c = '+' then (digitsValue ds : Int) else (digitsValue (c :: ds) : Int)

/-- atoi (31); the literal is NUL-terminated, so it stops at the end of the view at the latest -/
def atoi (s : List Char) : Option Int :=
  if -2147483648 ≤ signedValue (s.dropWhile isSpace) ∧ signedValue (s.dropWhile isSpace) ≤ 2147483647 then
    some (signedValue (s.dropWhile isSpace)) else none

/-- static_cast<in_port_t> (32): modulo 2^16 -/
def toPort (v : Int) : Nat := (v % 65536).toNat

/-- operator""_tcp_s (22-33) -/
def tcpS {Addr : Type} (make : List Char → Option Addr) (str : List Char) : Result Addr :=
  match rfind ':' str with
  | none => .portRequired
  | some d =>
    match atoi (str.drop (d + 1)) with
    | none => .undefined
    | some portnum =>
      match make (str.take d) with
      | none => .badAddress
      | some a => .server a (toPort portnum)

theorem rfind_append (c : Char) (xs ys : List Char) (h : c ∉ ys) : rfind c (xs ++ c :: ys) = some xs.length := by
  have h0 : ∀ zs, c ∉ zs → rfind c zs = none := by
    intro zs
    induction zs with
    | nil => intro _; rfl
    | cons z zs ih =>
      intro hz
      simp only [List.mem_cons, not_or] at hz
      rw [rfind, ih hz.2]
      simp [Ne.symm hz.1]
  induction xs with
  | nil => rw [List.nil_append, rfind, h0 ys h]; simp
  | cons x xs ih => rw [List.cons_append, rfind, ih]; rfl

theorem last_occurrence (c : Char) (xs : List Char) (hm : c ∈ xs) : ∃ a b, xs = a ++ c :: b ∧ c ∉ b := by
  induction xs with
  | nil => simp at hm
  | cons x xs ih =>
    by_cases hx : c ∈ xs
    · obtain ⟨a, b, h1, h2⟩ := ih hx
      exact ⟨x :: a, b, by rw [h1]; rfl, h2⟩
    · have : c = x := by simpa [hx] using hm
      exact ⟨[], xs, by rw [this]; rfl, hx⟩

theorem rfind_none (c : Char) (xs : List Char) (h : c ∉ xs) : rfind c xs = none := by
  induction xs with
  | nil => rfl
  | cons z zs ih =>
    simp only [List.mem_cons, not_or] at h
    rw [rfind, ih h.2]
    simp [Ne.symm h.1]

theorem tcpS_split {Addr : Type} (make : List Char → Option Addr) (ip port : List Char) (h : ':' ∉ port) :
    tcpS make (ip ++ ':' :: port) =
      match atoi port with
      | none => .undefined
      | some v => match make ip with
        | none => .badAddress
        | some a => .server a (toPort v) := by
  unfold tcpS
  rw [rfind_append _ _ _ h]
  have h1 : (ip ++ ':' :: port).drop (ip.length + 1) = port := by
    rw [show ip ++ ':' :: port = (ip ++ [':']) ++ port by simp, List.drop_append_of_le_length (by simp)]
    simp
  have h2 : (ip ++ ':' :: port).take ip.length = ip := by simp
  simp only [h1, h2]

theorem digit_facts (c : Char) (h : c.isDigit = true) : isSpace c = false ∧ c ≠ '-' ∧ c ≠ '+' ∧ c ≠ ':' := by
  refine ⟨?_, ?_, ?_, ?_⟩
  · cases hs : isSpace c with
    | false => rfl
    | true =>
      simp only [isSpace, Bool.or_eq_true, decide_eq_true_eq] at hs
      rcases hs with ((((rfl | rfl) | rfl) | rfl) | rfl) | rfl <;> simp [Char.isDigit] at h
  all_goals rintro rfl; simp [Char.isDigit] at h

theorem atoi_digits (ds rest : List Char) (hne : ds ≠ []) (hd : ∀ c ∈ ds, c.isDigit = true) (hr : ∀ c, rest.head? = some c → c.isDigit = false)
    (hv : Nat.ofDigitChars 10 ds 0 ≤ 2147483647) : atoi (ds ++ rest) = some ((Nat.ofDigitChars 10 ds 0 : Nat) : Int) := by
  have htw : (ds ++ rest).takeWhile Char.isDigit = ds := by
    rw [List.takeWhile_append_of_pos hd]
    cases rest with
    | nil => simp
    | cons r rest => rw [List.takeWhile_cons_of_neg (by simp [hr r rfl])]; simp
  have hval : digitsValue (ds ++ rest) = Nat.ofDigitChars 10 ds 0 := by
    unfold digitsValue; rw [htw]; rfl
  unfold atoi
  cases ds with
  | nil => exact absurd rfl hne
  | cons d ds =>
    have hf := digit_facts d (hd d (by simp))
    have hdw : ((d :: ds) ++ rest).dropWhile isSpace = (d :: ds) ++ rest := by
      rw [List.cons_append, List.dropWhile_cons_of_neg (by simp [hf.1])]
    have hm : signedValue ((d :: ds) ++ rest) = (digitsValue ((d :: ds) ++ rest) : Int) := by
      rw [List.cons_append, signedValue, if_neg hf.2.1, if_neg hf.2.2.1]
    simp only [hdw, hm, hval]
    rw [if_pos (by omega)]

theorem digits_no_colon (ds : List Char) (hd : ∀ c ∈ ds, c.isDigit = true) : ':' ∉ ds :=
  fun h => (digit_facts _ (hd _ h)).2.2.2 rfl

/-- **C54, first half.**  Every address text with every port number in decimal is parsed to that address and that port (address texts may contain colons: IPv6). -/
theorem literal_parses {Addr : Type} (make : List Char → Option Addr) (ip : List Char) (a : Addr) (ha : make ip = some a) (p : Nat) (hp : p < 65536) :
    tcpS make (ip ++ ':' :: Nat.toDigits 10 p) = .server a p := by
  have hd : ∀ c ∈ Nat.toDigits 10 p, c.isDigit = true := fun c hc => Nat.isDigit_of_mem_toDigits (by omega) (by omega) hc
  have hv : Nat.ofDigitChars 10 (Nat.toDigits 10 p) 0 = p := Nat.ofDigitChars_ten_toDigits
  have h := atoi_digits (Nat.toDigits 10 p) [] Nat.toDigits_ne_nil hd (by simp) (by omega)
  rw [List.append_nil, hv] at h
  rw [tcpS_split make ip _ (digits_no_colon _ hd), h, ha]
  simp only [toPort, Result.server.injEq, true_and]
  omega

/-- **C54, second half, proved part.**  A text without a colon is rejected; a text whose address part is not an address never yields a server. -/
theorem literal_rejects_partial {Addr : Type} (make : List Char → Option Addr) (s : List Char) :
    (':' ∉ s → tcpS make s = .portRequired) ∧
    (∀ ip port, s = ip ++ ':' :: port → ':' ∉ port → make ip = none → ∀ a p, tcpS make s ≠ .server a p) := by
  refine ⟨fun h => ?_, ?_⟩
  · unfold tcpS; rw [rfind_none _ _ h]
  · rintro ip port rfl hp hm a p
    rw [tcpS_split make ip port hp, hm]
    cases atoi port <;> simp

theorem atoi_no_number (port : List Char) (h : ∀ c, (port.dropWhile isSpace).head? = some c → c.isDigit = false ∧ c ≠ '-' ∧ c ≠ '+') : atoi port = some 0 := by
  unfold atoi
  cases hd : port.dropWhile isSpace with
  | nil => rfl
  | cons c cs =>
    have hc := h c (by rw [hd]; rfl)
    have hm : signedValue (c :: cs) = (digitsValue (c :: cs) : Int) := by
      rw [signedValue, if_neg hc.2.1, if_neg hc.2.2]
    have hz : digitsValue (c :: cs) = 0 := by
      unfold digitsValue; rw [List.takeWhile_cons_of_neg (by simp [hc.1])]; rfl
    simp only [hm, hz]
    rfl

/-- **C54, second half, refuted.**  A missing port (nothing after the colon), or a port that is not a number at all, is accepted as port 0 ... -/
theorem literal_no_number_refuted {Addr : Type} (make : List Char → Option Addr) (ip : List Char) (a : Addr) (ha : make ip = some a) (port : List Char)
    (hc : ':' ∉ port) (h : ∀ c, (port.dropWhile isSpace).head? = some c → c.isDigit = false ∧ c ≠ '-' ∧ c ≠ '+') :
    tcpS make (ip ++ ':' :: port) = .server a 0 := by
  rw [tcpS_split make ip port hc, atoi_no_number port h, ha]; rfl

/-- ... numbers that are not port numbers are reduced modulo 65536 ... -/
theorem literal_big_port_refuted {Addr : Type} (make : List Char → Option Addr) (ip : List Char) (a : Addr) (ha : make ip = some a) (p : Nat)
    (hp : p ≤ 2147483647) : tcpS make (ip ++ ':' :: Nat.toDigits 10 p) = .server a (p % 65536) := by
  have hd : ∀ c ∈ Nat.toDigits 10 p, c.isDigit = true := fun c hc => Nat.isDigit_of_mem_toDigits (by omega) (by omega) hc
  have hv : Nat.ofDigitChars 10 (Nat.toDigits 10 p) 0 = p := Nat.ofDigitChars_ten_toDigits
  have h := atoi_digits (Nat.toDigits 10 p) [] Nat.toDigits_ne_nil hd (by simp) (by omega)
  rw [List.append_nil, hv] at h
  rw [tcpS_split make ip _ (digits_no_colon _ hd), h, ha]
  simp only [toPort, Result.server.injEq, true_and]
  omega

/-- ... and text after the number is ignored. -/
theorem literal_trailing_refuted {Addr : Type} (make : List Char → Option Addr) (ip : List Char) (a : Addr) (ha : make ip = some a) (p : Nat) (hp : p < 65536)
    (junk : List Char) (hc : ':' ∉ junk) (hj : ∀ c, junk.head? = some c → c.isDigit = false) :
    tcpS make (ip ++ ':' :: (Nat.toDigits 10 p ++ junk)) = .server a p := by
  have hd : ∀ c ∈ Nat.toDigits 10 p, c.isDigit = true := fun c hc => Nat.isDigit_of_mem_toDigits (by omega) (by omega) hc
  have hv : Nat.ofDigitChars 10 (Nat.toDigits 10 p) 0 = p := Nat.ofDigitChars_ten_toDigits
  have h := atoi_digits (Nat.toDigits 10 p) junk Nat.toDigits_ne_nil hd hj (by omega)
  rw [hv] at h
  rw [tcpS_split make ip _ (by simp [digits_no_colon _ hd, hc]), h, ha]
  simp only [toPort, Result.server.injEq, true_and]
  omega

/-- concrete cases: IPv6 address with port, missing port, port out of range, negative port, port text -/
example : let make : List Char → Option Nat := fun ip => if ip = "::1".toList then some 6 else if ip = "1.2.3.4".toList then some 4 else none
    [tcpS make "::1:8080".toList, tcpS make "1.2.3.4:".toList, tcpS make "1.2.3.4:65537".toList, tcpS make "1.2.3.4:-1".toList, tcpS make "1.2.3.4:http".toList,
      tcpS make "1.2.3.4".toList, tcpS make "localhost:80".toList, tcpS make "1.2.3.4:9999999999".toList] =
    [.server 6 8080, .server 4 0, .server 4 1, .server 4 65535, .server 4 0, .portRequired, .badAddress, .undefined] := by decide

end Verif.TcpServer.Literal
