/-!
# Numbers as text

`printNat b n` is what `fmt` prints for `{}` (base 10) and `{:X}` (base 16) of a non-negative
integer: most significant digit first, no leading zero, upper-case letters.  `readNat` is the
specification side: the positional value of a digit string.
-/

namespace Kratos.Text

/-- Digit characters `0-9A-F`. -/
def digitChar (d : Nat) : Char :=
  (['0','1','2','3','4','5','6','7','8','9','A','B','C','D','E','F'])[d]?.getD '?'

/-- Digits with an accumulator; `fuel` bounds the number of digits. -/
def printAux (b : Nat) : Nat → Nat → List Char → List Char
  | 0, _, acc => acc
  | fuel + 1, n, acc =>
      if n / b = 0 then digitChar (n % b) :: acc
      else printAux b fuel (n / b) (digitChar (n % b) :: acc)

def printNat (b n : Nat) : List Char := printAux b (n + 1) n []

/-- Value of a digit character in base `b` (specification; both letter cases, as in Verilog). -/
def digitVal (b : Nat) (c : Char) : Option Nat :=
  let d := if '0'.toNat ≤ c.toNat ∧ c.toNat ≤ '9'.toNat then some (c.toNat - '0'.toNat)
    else if 'A'.toNat ≤ c.toNat ∧ c.toNat ≤ 'F'.toNat then some (c.toNat - 'A'.toNat + 10)
    else if 'a'.toNat ≤ c.toNat ∧ c.toNat ≤ 'f'.toNat then some (c.toNat - 'a'.toNat + 10)
    else none
  match d with
  | some d => if d < b then some d else none
  | none => none

/-- Positional value of a string of digits; `none` when a character is not a digit. -/
def readAux (b : Nat) : Nat → List Char → Option Nat
  | acc, [] => some acc
  | acc, c :: cs => match digitVal b c with
      | some d => readAux b (acc * b + d) cs
      | none => none

/-- A number must have at least one digit. -/
def readNat (b : Nat) : List Char → Option Nat
  | [] => none
  | cs => readAux b 0 cs

/-- `span` of the leading digits. -/
def takeDigits (b : Nat) : List Char → List Char × List Char
  | [] => ([], [])
  | c :: cs => if (digitVal b c).isSome then
        let p := takeDigits b cs
        (c :: p.1, p.2)
      else ([], c :: cs)

/-! ### Lemmas -/

theorem digitVal_digitChar16 : ∀ d, d < 16 → digitVal 16 (digitChar d) = some d := by decide
theorem digitVal_digitChar10 : ∀ d, d < 10 → digitVal 10 (digitChar d) = some d := by decide

theorem digitVal_digitChar {b d : Nat} (hb : b = 10 ∨ b = 16) (h : d < b) :
    digitVal b (digitChar d) = some d := by
  rcases hb with rfl | rfl
  · exact digitVal_digitChar10 d h
  · exact digitVal_digitChar16 d h

theorem readAux_append (b : Nat) : ∀ (xs ys : List Char) (a : Nat),
    readAux b a (xs ++ ys) = (readAux b a xs).bind fun r => readAux b r ys
  | [], ys, a => rfl
  | c :: xs, ys, a => by
      simp only [List.cons_append, readAux]
      cases digitVal b c with
      | none => rfl
      | some d => exact readAux_append b xs ys _

theorem printAux_append (b : Nat) : ∀ (f n : Nat) (acc : List Char),
    printAux b f n acc = printAux b f n [] ++ acc
  | 0, _, acc => rfl
  | f + 1, n, acc => by
      simp only [printAux]
      split
      · rfl
      · rw [printAux_append b f _ (_ :: acc), printAux_append b f _ [_]]
        simp

theorem readAux_print {b : Nat} (hb : b = 10 ∨ b = 16) : ∀ (f n : Nat), n < f →
    readAux b 0 (printAux b f n []) = some n
  | 0, n, h => by omega
  | f + 1, n, h => by
      have hb2 : 2 ≤ b := by omega
      have hm : n % b < b := Nat.mod_lt _ (by omega)
      simp only [printAux]
      split
      · rename_i h0
        have hn : n < b := by
          rcases Nat.lt_or_ge n b with h' | h'
          · exact h'
          · have := Nat.div_pos h' (by omega); omega
        rw [Nat.mod_eq_of_lt hn]; simp [readAux, digitVal_digitChar hb hn]
      · rename_i h0
        have hlt : n / b < f := by
          have : n / b < n := Nat.div_lt_self (by rcases Nat.eq_zero_or_pos n with h | h; (subst h; simp at h0); exact h) hb2
          omega
        rw [printAux_append, readAux_append, readAux_print hb f _ hlt]
        simp only [Option.bind, readAux, digitVal_digitChar hb hm]
        rw [Nat.mul_comm, Nat.div_add_mod]

theorem printNat_ne_nil (b n : Nat) : printNat b n ≠ [] := by
  unfold printNat
  rw [printAux]
  split
  · simp
  · rw [printAux_append]; simp

/-- Printing then reading a number gives the number. -/
theorem readNat_printNat {b : Nat} (hb : b = 10 ∨ b = 16) (n : Nat) :
    readNat b (printNat b n) = some n := by
  have h := readAux_print hb (n + 1) n (by omega)
  have hne := printNat_ne_nil b n
  unfold printNat at *
  cases hp : printAux b (n + 1) n [] with
  | nil => exact absurd hp hne
  | cons c cs => rw [hp] at h; exact h

theorem printAux_digits {b : Nat} (hb : b = 10 ∨ b = 16) : ∀ (f n : Nat) (acc : List Char),
    (∀ c ∈ acc, (digitVal b c).isSome) → ∀ c ∈ printAux b f n acc, (digitVal b c).isSome
  | 0, _, acc, h => h
  | f + 1, n, acc, h => by
      have hm : n % b < b := Nat.mod_lt _ (by omega)
      have h' : ∀ c ∈ digitChar (n % b) :: acc, (digitVal b c).isSome := by
        intro c hc
        rw [List.mem_cons] at hc
        rcases hc with rfl | hc
        · rw [digitVal_digitChar hb hm]; rfl
        · exact h c hc
      simp only [printAux]
      split
      · exact h'
      · exact printAux_digits hb f _ _ h'

theorem printNat_digits {b : Nat} (hb : b = 10 ∨ b = 16) (n : Nat) :
    ∀ c ∈ printNat b n, (digitVal b c).isSome :=
  printAux_digits hb _ _ _ (by simp)

theorem takeDigits_append (b : Nat) : ∀ (ds rest : List Char), (∀ c ∈ ds, (digitVal b c).isSome) →
    (∀ c, rest.head? = some c → (digitVal b c).isSome = false) →
    takeDigits b (ds ++ rest) = (ds, rest)
  | [], rest, _, h => by
      cases rest with
      | nil => rfl
      | cons c cs => simp [takeDigits, h c rfl]
  | d :: ds, rest, hd, h => by
      have hd0 : (digitVal b d).isSome = true := hd d (by simp)
      have ih := takeDigits_append b ds rest (fun c hc => hd c (by simp [hc])) h
      simp only [List.cons_append, takeDigits, hd0, if_true, ih]

end Kratos.Text
