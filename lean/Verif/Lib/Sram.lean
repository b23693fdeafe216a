import Verif.Util.Clog2Props
import Verif.Slice.Model

/-!
# Banked memories (property C56)

Models the two constructors of `SinglePortSRAM` and `SRAM::capacity` (src/lib.cc:20-160): when they succeed, and what the generated hardware
does at a clock edge. A memory is a macro or a bank of copies of a memory (`Generator::clone`, src/generator.cc:1021-1049, makes further
instances of the same module).

Simplified: two-state values, except that reading an array out of range gives an unknown value (`none`); the ports keep their default names.
-/

namespace Kratos.Sram

open Kratos.Util (ceilLog2)
open Kratos.Slice (mul32 u32)

/-! ### Model -/

/-- Shape of a memory: a macro with `a` address bits, or `n` copies of a memory. -/
inductive Shape where
  | leaf (a : Nat)
  | bank (n : Nat) (b : Shape)

/-- `addr_width_`; for a bank src/lib.cc:94-95. -/
def Shape.aw : Shape → Nat
  | .leaf a => a
  | .bank n b => b.aw + ceilLog2 n

/-- `SRAM::capacity`, src/lib.cc:24, on `uint32_t`; a shift by 32 or more is undefined. -/
def capacity (aw dw : Nat) : Res Nat := if 32 ≤ aw then .ub else .ok (mul32 (2 ^ aw) dw)

/-- The second constructor, src/lib.cc:84-108: the number of copies. Division by zero is undefined, and so is the conversion of
`log2(0)`; a single copy needs a selector of width 0, which is rejected (src/expr.cc:874). -/
def build (cap aw dw : Nat) : Res Nat :=
  (capacity aw dw).bind fun basic =>
    if basic = 0 then .ub
    else if cap % basic ≠ 0 then .throw .user
    else if cap / basic = 0 then .ub
    else if ceilLog2 (cap / basic) = 0 then .throw .user
    else .ok (cap / basic)

/-- The inputs at a clock edge: chip enable and write enable (both active low), address, data, write mask (active low). -/
structure In (d : Nat) where
  ceb : Bool
  web : Bool
  addr : Nat
  din : BitVec d
  mask : BitVec d

/-- Registers: the array and the output of a macro; the copies and `output_select` of a bank. -/
def St (d : Nat) : Shape → Type
  | .leaf _ => (Nat → BitVec d) × BitVec d
  | .bank _ b => (Nat → St d b) × Nat

/-- src/lib.cc:67-78: with `partial_write` only the bits whose mask is 0. -/
def merge {d : Nat} (pw : Bool) (old : BitVec d) (i : In d) : BitVec d := if pw then (old &&& i.mask) ||| (i.din &&& ~~~i.mask) else i.din

/-- src/lib.cc:115-116. -/
def select (n : Nat) (b : Shape) (addr : Nat) : Nat := addr / 2 ^ b.aw % 2 ^ ceilLog2 n
def lower (b : Shape) (addr : Nat) : Nat := addr % 2 ^ b.aw

/-- `WEB_array`, src/lib.cc:119-122. -/
def webArray (n : Nat) (web : Bool) (sel : Nat) : BitVec n := if !web then ~~~(1#n <<< sel) else ~~~(0#n)

/-- One clock edge: macro src/lib.cc:52-81; bank 124-131 and 140-158. -/
def step {d : Nat} (pw : Bool) : (sh : Shape) → St d sh → In d → St d sh
  | .leaf _, s, i =>
    if !i.ceb then (if !i.web then (fun x => if x = i.addr then merge pw (s.1 i.addr) i else s.1 x, s.1 i.addr) else (s.1, s.1 i.addr)) else s
  | .bank n b, s, i =>
    (fun k => step pw b (s.1 k) { i with addr := lower b i.addr, web := (webArray n i.web (select n b i.addr)).getLsbD k },
      if !i.ceb && i.web then select n b i.addr else s.2)

/-- The output: macro; bank `Q_array[output_select]`, src/lib.cc:137, 154. -/
def out {d : Nat} : (sh : Shape) → St d sh → Option (BitVec d)
  | .leaf _, s => some s.2
  | .bank n b, s => if s.2 < n then out b (s.1 s.2) else none

def run {d : Nat} (pw : Bool) (sh : Shape) (s : St d sh) (h : List (In d)) : St d sh := h.foldl (step pw sh) s

/-! ### Specification -/

/-- An access. -/
inductive Acc (d : Nat) where
  | idle (i : In d)
  | read (addr : Nat) (din mask : BitVec d)
  | write (addr : Nat) (din mask : BitVec d)

/-- The inputs for an access; whatever is not needed is arbitrary. -/
def Acc.inputs {d : Nat} : Acc d → In d
  | .idle i => { i with ceb := true }
  | .read a x m => ⟨false, true, a, x, m⟩
  | .write a x m => ⟨false, false, a, x, m⟩

/-- The access writes bit `j` of address `a`. -/
def Acc.writes {d : Nat} (pw : Bool) (a j : Nat) : Acc d → Option Bool
  | .write a' x m => if a' = a ∧ (pw = false ∨ m.getLsbD j = false) then some (x.getLsbD j) else none
  | _ => none

/-- Bit `j` at address `a` after a history: what the latest access that writes it wrote. -/
def lastBit {d : Nat} (pw : Bool) (start : Nat → BitVec d) (h : List (Acc d)) (a j : Nat) : Bool :=
  (h.reverse.findSome? (Acc.writes pw a j)).getD ((start a).getLsbD j)

/-- The address exists: in every bank on the way the selected copy does. -/
def Shape.Has : Shape → Nat → Prop
  | .leaf a, x => x < 2 ^ a
  | .bank n b, x => x / 2 ^ b.aw < n ∧ b.Has (x % 2 ^ b.aw)

def Shape.Ok : Shape → Prop
  | .leaf _ => True
  | .bank n b => n ≠ 0 ∧ b.Ok

/-- The access fits the address port. -/
def Acc.Fits {d : Nat} (w : Nat) : Acc d → Prop
  | .idle _ => True
  | .read a _ _ => a < 2 ^ w
  | .write a _ _ => a < 2 ^ w

def Acc.isIdle {d : Nat} : Acc d → Prop
  | .idle _ => True
  | _ => False

/-- Full claim: a bank of `n` macros shows, from the first read on, the same output as one macro with the same addresses. -/
def BankClaim : Prop := ∀ (d a n : Nat) (pw : Bool) (s : St d (.bank n (.leaf a))), 2 ≤ n →
  ∃ big : St d (.leaf (Shape.bank n (.leaf a)).aw), ∀ (h1 h2 : List (Acc d)) (x : Nat) (dx mx : BitVec d),
    (∀ c ∈ h1 ++ h2, ∀ y dy my, c = .read y dy my ∨ c = .write y dy my → y < n * 2 ^ a) → x < n * 2 ^ a →
    out _ (run pw _ s ((h1 ++ .read x dx mx :: h2).map Acc.inputs)) = out _ (run pw _ big ((h1 ++ .read x dx mx :: h2).map Acc.inputs))

/-! ### Proofs -/

/-- What is stored at an address. -/
def stored {d : Nat} : (sh : Shape) → St d sh → Nat → BitVec d
  | .leaf _, s, x => s.1 x
  | .bank _ b, s, x => stored b (s.1 (x / 2 ^ b.aw)) (x % 2 ^ b.aw)

theorem web_bit {n k : Nat} (hk : k < n) (web : Bool) (sel : Nat) : (webArray n web sel).getLsbD k = (web || decide (k ≠ sel)) := by
  unfold webArray
  cases web with
  | true => simp [hk]
  | false =>
    simp only [Bool.not_false, if_true, BitVec.getLsbD_not, hk, decide_true, Bool.true_and, BitVec.getLsbD_shiftLeft, BitVec.getLsbD_one, Bool.false_or]
    by_cases h : k < sel
    · simp [h]; omega
    · by_cases e : k = sel
      · simp [e]; omega
      · have : k - sel ≠ 0 := by omega
        simp [h, e, this]

theorem step_idle {d : Nat} (pw : Bool) : ∀ (sh : Shape) (s : St d sh) (i : In d), i.ceb = true → step pw sh s i = s
  | .leaf _, s, i, h => by simp [step, h]
  | .bank n b, s, i, h => by
    have ih : ∀ (j : In d) k, j.ceb = true → step pw b (s.1 k) j = s.1 k := fun j k hj => step_idle pw b _ j hj
    simp [step, h, ih]
    rfl

theorem step_read {d : Nat} (pw : Bool) : ∀ (sh : Shape) (s : St d sh) (i : In d) (x : Nat), sh.Has x → i.web = true →
    stored sh (step pw sh s i) x = stored sh s x
  | .leaf _, s, i, x, _, h => by unfold step stored; cases i.ceb <;> simp [h]
  | .bank n b, s, i, x, hx, h => by
    unfold stored step
    refine step_read pw b _ _ _ hx.2 ?_
    show (webArray n i.web _).getLsbD _ = true
    rw [web_bit hx.1, h]
    rfl

theorem step_write {d : Nat} (pw : Bool) : ∀ (sh : Shape) (s : St d sh) (i : In d) (x : Nat), sh.Ok → sh.Has x → i.addr < 2 ^ sh.aw → i.ceb = false → i.web = false →
    stored sh (step pw sh s i) x = if x = i.addr then merge pw (stored sh s x) i else stored sh s x
  | .leaf _, s, i, x, _, _, _, hc, hw => by
    have e : step pw (.leaf _) s i = (fun x => if x = i.addr then merge pw (s.1 i.addr) i else s.1 x, s.1 i.addr) := by simp [step, hc, hw]; rfl
    rw [e]
    show (if x = i.addr then merge pw (s.1 i.addr) i else s.1 x) = if x = i.addr then merge pw (s.1 x) i else s.1 x
    split
    · rename_i e; rw [e]
    · rfl
  | .bank n b, s, i, x, hok, hx, hi, hc, hw => by
    have hsel : select n b i.addr = i.addr / 2 ^ b.aw := by
      unfold select
      apply Nat.mod_eq_of_lt
      apply Nat.div_lt_of_lt_mul
      rw [← Nat.pow_add]
      exact hi
    have hpos : 0 < 2 ^ b.aw := Nat.two_pow_pos _
    simp only [step, stored]
    rw [hsel]
    have hwb := web_bit hx.1 i.web (i.addr / 2 ^ b.aw)
    rw [hwb, hw, Bool.false_or]
    by_cases e : x / 2 ^ b.aw = i.addr / 2 ^ b.aw
    · have := step_write pw b (s.1 (x / 2 ^ b.aw)) { i with addr := lower b i.addr, web := false } (x % 2 ^ b.aw) hok.2 hx.2 (Nat.mod_lt _ hpos) hc rfl
      rw [decide_eq_false (fun h => h e), this]
      have iff : x % 2 ^ b.aw = lower b i.addr ↔ x = i.addr := by
        unfold lower
        constructor
        · intro h
          rw [← Nat.div_add_mod x (2 ^ b.aw), ← Nat.div_add_mod i.addr (2 ^ b.aw), e, h]
        · intro h; rw [h]
      simp only [iff]
      rfl
    · rw [decide_eq_true e, if_neg (fun h => e (by rw [h]))]
      exact step_read pw b _ _ _ hx.2 rfl

theorem out_read {d : Nat} (pw : Bool) : ∀ (sh : Shape) (s : St d sh) (i : In d), sh.Ok → sh.Has i.addr → i.ceb = false → i.web = true →
    out sh (step pw sh s i) = some (stored sh s i.addr)
  | .leaf _, s, i, _, _, hc, hw => by simp [step, out, stored, hc, hw]
  | .bank n b, s, i, hok, hx, hc, hw => by
    have hsel : select n b i.addr = i.addr / 2 ^ b.aw := Nat.mod_eq_of_lt (Nat.lt_of_lt_of_le hx.1 (Util.le_two_pow_ceilLog2 n hok.1))
    simp only [step, out, stored, hc, hw, Bool.not_false, Bool.and_self, if_true, hsel, if_pos hx.1]
    exact out_read pw b (s.1 (i.addr / 2 ^ b.aw)) ⟨false, (webArray n true (i.addr / 2 ^ b.aw)).getLsbD (i.addr / 2 ^ b.aw), lower b i.addr, i.din, i.mask⟩ hok.2 hx.2 rfl (by
      show (webArray n true (i.addr / 2 ^ b.aw)).getLsbD (i.addr / 2 ^ b.aw) = true
      rw [web_bit hx.1]; rfl)

theorem merge_bit {d : Nat} (pw : Bool) (old : BitVec d) (i : In d) {j : Nat} (hj : j < d) :
    (merge pw old i).getLsbD j = if pw = false ∨ i.mask.getLsbD j = false then i.din.getLsbD j else old.getLsbD j := by
  unfold merge
  cases pw with
  | false => simp
  | true =>
    simp only [if_true, BitVec.getLsbD_or, BitVec.getLsbD_and, BitVec.getLsbD_not, hj, decide_true, Bool.true_and, Bool.true_eq_false, false_or]
    cases i.mask.getLsbD j <;> simp

/-- The memory keeps what was written last. -/
theorem stored_run {d : Nat} (pw : Bool) (sh : Shape) (hok : sh.Ok) (s : St d sh) (x : Nat) (hx : sh.Has x) (j : Nat) (hj : j < d) :
    ∀ l : List (Acc d), (∀ c ∈ l, c.Fits sh.aw) → (stored sh (run pw sh s (l.reverse.map Acc.inputs)) x).getLsbD j = lastBit pw (stored sh s) l.reverse x j
  | [], _ => rfl
  | c :: l, h => by
    have ih := stored_run pw sh hok s x hx j hj l fun y hy => h y (List.mem_cons_of_mem _ hy)
    have hc := h c (List.mem_cons_self ..)
    have hl : lastBit pw (stored sh s) (c :: l).reverse x j = (c.writes pw x j).getD (lastBit pw (stored sh s) l.reverse x j) := by
      unfold lastBit
      rw [List.reverse_reverse, List.findSome?_cons, List.reverse_reverse]
      cases c.writes pw x j <;> rfl
    rw [hl, ← ih, List.reverse_cons, List.map_append, run, List.foldl_append]
    show (stored sh (step pw sh (run pw sh s (l.reverse.map Acc.inputs)) c.inputs) x).getLsbD j = _
    cases c with
    | idle i => rw [step_idle pw sh _ _ rfl]; rfl
    | read a dx m => rw [step_read pw sh _ _ _ hx rfl]; rfl
    | write a dx m =>
      rw [step_write pw sh _ _ _ hok hx (show (Acc.inputs (.write a dx m)).addr < _ from hc) rfl rfl]
      show (if x = a then merge pw _ ⟨false, false, a, dx, m⟩ else _).getLsbD j = _
      by_cases e : x = a
      · rw [if_pos e, merge_bit pw _ _ hj]
        simp only [Acc.writes, e, true_and]
        split <;> simp [*]
      · rw [if_neg e]
        simp only [Acc.writes, Ne.symm e, false_and, if_false, Option.getD_none]

theorem run_idles {d : Nat} (pw : Bool) (sh : Shape) : ∀ (l : List (Acc d)) (s : St d sh), (∀ c ∈ l, c.isIdle) → run pw sh s (l.map Acc.inputs) = s
  | [], _, _ => rfl
  | c :: l, s, h => by
    have hc := h c (List.mem_cons_self ..)
    cases c with
    | idle i =>
      show run pw sh (step pw sh s _) (l.map Acc.inputs) = s
      rw [step_idle pw sh s _ rfl]
      exact run_idles pw sh l s fun y hy => h y (List.mem_cons_of_mem _ hy)
    | read => exact absurd hc id
    | write => exact absurd hc id

/-! ### Property theorems -/

/-- C56 for reads: in every memory, however deeply banked, a read of an existing address shows, bit for bit, what was written there last, and
keeps showing it while the memory is idle. -/
theorem read_partial {d : Nat} (pw : Bool) (sh : Shape) (hok : sh.Ok) (s : St d sh) : ∃ start : Nat → BitVec d,
    ∀ (h idles : List (Acc d)) (x : Nat) (dx mx : BitVec d), (∀ c ∈ h, c.Fits sh.aw) → (∀ c ∈ idles, c.isIdle) → sh.Has x →
      ∃ q, out sh (run pw sh s ((h ++ .read x dx mx :: idles).map Acc.inputs)) = some q ∧ ∀ j, j < d → q.getLsbD j = lastBit pw start h x j := by
  refine ⟨stored sh s, fun h idles x dx mx hf hi hx => ⟨stored sh (run pw sh s (h.map Acc.inputs)) x, ?_, ?_⟩⟩
  · rw [List.map_append, run, List.foldl_append]
    show out sh (run pw sh (step pw sh (run pw sh s (h.map Acc.inputs)) _) (idles.map Acc.inputs)) = _
    rw [run_idles pw sh idles _ hi]
    exact out_read pw sh _ ⟨false, true, x, dx, mx⟩ hok hx rfl rfl
  · intro j hj
    have := stored_run pw sh hok s x hx j hj h.reverse (fun c hc => hf c (List.mem_reverse.1 hc))
    rwa [List.reverse_reverse] at this

/-- The addresses of a bank of `n` macros are those below `n` times the size of the macro; and of copies of a bank of a power of two. -/
theorem bank_has (n a x : Nat) : (Shape.bank n (.leaf a)).Has x ↔ x < n * 2 ^ a := by
  have hp : 0 < 2 ^ a := Nat.two_pow_pos _
  show (x / 2 ^ a < n ∧ x % 2 ^ a < 2 ^ a) ↔ _
  rw [Nat.div_lt_iff_lt_mul hp]
  exact ⟨And.left, fun h => ⟨h, Nat.mod_lt _ hp⟩⟩

/-- Agreement with one large macro after a history that ends with a read and idle cycles. -/
theorem large_partial {d : Nat} (pw : Bool) (n a : Nat) (hn : 2 ≤ n) (s : St d (.bank n (.leaf a))) :
    ∃ big : St d (.leaf (Shape.bank n (.leaf a)).aw), ∀ (h idles : List (Acc d)) (x : Nat) (dx mx : BitVec d),
      (∀ c ∈ h, c.Fits (Shape.bank n (.leaf a)).aw) → (∀ c ∈ idles, c.isIdle) → x < n * 2 ^ a →
      out _ (run pw _ s ((h ++ .read x dx mx :: idles).map Acc.inputs)) = out _ (run pw _ big ((h ++ .read x dx mx :: idles).map Acc.inputs)) := by
  refine ⟨(stored _ s, 0#d), fun h idles x dx mx hf hi hx => ?_⟩
  have hok : (Shape.bank n (.leaf a)).Ok := ⟨by omega, trivial⟩
  have hb := (bank_has n a x).2 hx
  have e1 : out _ (run pw _ s ((h ++ .read x dx mx :: idles).map Acc.inputs)) = some (stored _ (run pw _ s (h.map Acc.inputs)) x) := by
    rw [List.map_append, run, List.foldl_append]
    show out _ (run pw _ (step pw _ (run pw _ s (h.map Acc.inputs)) _) (idles.map Acc.inputs)) = _
    rw [run_idles pw _ idles _ hi]
    exact out_read pw _ _ ⟨false, true, x, dx, mx⟩ hok hb rfl rfl
  have hx2 : x < 2 ^ (Shape.bank n (.leaf a)).aw := by
    refine Nat.lt_of_lt_of_le hx ?_
    show n * 2 ^ a ≤ 2 ^ (a + ceilLog2 n)
    rw [Nat.pow_add, Nat.mul_comm]
    exact Nat.mul_le_mul_left _ (Util.le_two_pow_ceilLog2 n (by omega))
  have e2 : ∀ big : St d (.leaf (Shape.bank n (.leaf a)).aw), out _ (run pw _ big ((h ++ .read x dx mx :: idles).map Acc.inputs)) =
      some (stored _ (run pw _ big (h.map Acc.inputs)) x) := by
    intro big
    rw [List.map_append, run, List.foldl_append]
    show out _ (run pw _ (step pw _ (run pw _ big (h.map Acc.inputs)) _) (idles.map Acc.inputs)) = _
    rw [run_idles pw _ idles _ hi]
    exact out_read pw (.leaf _) _ ⟨false, true, x, dx, mx⟩ trivial hx2 rfl rfl
  rw [e1]
  refine Eq.trans ?_ (e2 _).symm
  congr 1
  apply BitVec.eq_of_getLsbD_eq
  intro j hj
  have r1 := stored_run pw _ hok s x hb j hj h.reverse (fun c hc => hf c (List.mem_reverse.1 hc))
  have r2 := stored_run pw (.leaf (Shape.bank n (.leaf a)).aw) trivial (stored _ s, 0#d) x hx2 j hj h.reverse (fun c hc => hf c (List.mem_reverse.1 hc))
  rw [List.reverse_reverse] at r1 r2
  rw [r1, r2]
  rfl


theorem leaf_out {d : Nat} (pw : Bool) (a : Nat) (s : St d (.leaf a)) (i : In d) (h : i.ceb = false) : out (.leaf a) (step pw (.leaf a) s i) = some (s.1 i.addr) := by
  unfold out step
  cases i.web <;> simp [h]

/-- After a write the two differ: the bank shows the copy that was read last, at the lower part of the address written. -/
theorem write_shows {d : Nat} (pw : Bool) (n a : Nat) (s : St d (.bank n (.leaf a))) (hs : s.2 < n) (x : Nat) (dx mx : BitVec d) :
    out _ (step pw _ s (Acc.inputs (.write x dx mx))) = some (stored _ s (s.2 * 2 ^ a + x % 2 ^ a)) := by
  have hp : 0 < 2 ^ a := Nat.two_pow_pos _
  have e1 : (s.2 * 2 ^ a + x % 2 ^ a) / 2 ^ a = s.2 := by
    rw [Nat.mul_comm, Nat.mul_add_div hp, Nat.div_eq_of_lt (Nat.mod_lt _ hp), Nat.add_zero]
  have e2 : (s.2 * 2 ^ a + x % 2 ^ a) % 2 ^ a = x % 2 ^ a := by
    rw [Nat.mul_comm, Nat.mul_add_mod, Nat.mod_mod]
  have e3 : stored (.bank n (.leaf a)) s (s.2 * 2 ^ a + x % 2 ^ a) = (s.1 s.2).1 (x % 2 ^ a) := by
    show (s.1 ((s.2 * 2 ^ a + x % 2 ^ a) / 2 ^ a)).1 ((s.2 * 2 ^ a + x % 2 ^ a) % 2 ^ a) = _
    rw [e1, e2]
  rw [e3]
  show (if s.2 < n then out (.leaf a) (step pw (.leaf a) (s.1 s.2) _) else none) = _
  rw [if_pos hs]
  exact leaf_out pw a _ _ rfl

def two : St 1 (.bank 2 (.leaf 1)) := (fun k => (fun _ => if k = 0 then 0#1 else 1#1, 0#1), 0)

theorem not_BankClaim : ¬ BankClaim := by
  intro h
  obtain ⟨big, hb⟩ := h 1 1 2 false two (by decide)
  -- the large macro must hold 1 at address 2 and show it when address 2 is written
  have h1 := hb [.read 2 0#1 0#1] [] 2 0#1 0#1 (by
    intro c hc y dy my e
    cases List.mem_singleton.1 hc
    rcases e with e | e <;> cases e
    decide) (by decide)
  have h2 := hb [] [.write 2 0#1 0#1] 0 0#1 0#1 (by
    intro c hc y dy my e
    cases List.mem_singleton.1 hc
    rcases e with e | e <;> cases e
    decide) (by decide)
  have a1 : out _ (run false _ two (([Acc.read 2 0#1 0#1] ++ Acc.read 2 0#1 0#1 :: []).map Acc.inputs)) = some 1#1 := by decide +kernel
  have a2 : out _ (run false _ two (([] ++ Acc.read 0 0#1 0#1 :: [.write 2 0#1 0#1]).map Acc.inputs)) = some 0#1 := by decide +kernel
  rw [a1] at h1
  rw [a2] at h2
  have b1 : out _ (run false (.leaf _) big (([Acc.read 2 0#1 0#1] ++ Acc.read 2 0#1 0#1 :: []).map Acc.inputs)) = some (big.1 2) := rfl
  have b2 : out _ (run false (.leaf _) big (([] ++ Acc.read 0 0#1 0#1 :: [.write 2 0#1 0#1]).map Acc.inputs)) = some (big.1 2) := rfl
  rw [b1] at h1
  rw [b2, ← h1] at h2
  exact absurd h2 (by decide)

/-- A bank whose number of copies is not a power of two reports addresses it does not have: reading one shows nothing, writing one changes
nothing. -/
theorem holes {d : Nat} (pw : Bool) (n a : Nat) (hn : 2 ≤ n) (s : St d (.bank n (.leaf a))) (x : Nat) (dx mx : BitVec d) (hx : n * 2 ^ a ≤ x)
    (hw : x < 2 ^ (Shape.bank n (.leaf a)).aw) :
    out _ (step pw _ s (Acc.inputs (.read x dx mx))) = none ∧
    ∀ y, y < n * 2 ^ a → stored _ (step pw _ s (Acc.inputs (.write x dx mx))) y = stored _ s y := by
  have hp : 0 < 2 ^ a := Nat.two_pow_pos _
  have hsel : select n (.leaf a) x = x / 2 ^ a := by
    unfold select
    apply Nat.mod_eq_of_lt
    apply Nat.div_lt_of_lt_mul
    rw [← Nat.pow_add]
    exact hw
  constructor
  · simp only [step, out, Acc.inputs, Bool.not_false, Bool.and_self, if_true, hsel]
    rw [if_neg]
    rw [Nat.div_lt_iff_lt_mul hp]
    omega
  · intro y hy
    rw [step_write pw _ s _ y ⟨by omega, trivial⟩ ((bank_has n a y).2 hy) hw rfl rfl]
    show (if y = x then _ else _) = _
    rw [if_neg (by omega)]

/-- What `capacity()` says about a bank exceeds what it has, unless the number of copies is a power of two. -/
theorem capacity_of_bank (n a dw : Nat) (hn : 2 ≤ n) (hd : 0 < dw) (h : 2 ^ (Shape.bank n (.leaf a)).aw * dw < 2 ^ 32) :
    ∃ c, capacity (Shape.bank n (.leaf a)).aw dw = .ok c ∧ n * 2 ^ a * dw ≤ c ∧ (c = n * 2 ^ a * dw ↔ ∃ k, n = 2 ^ k) := by
  have hle : n ≤ 2 ^ ceilLog2 n := Util.le_two_pow_ceilLog2 n (by omega)
  have haw : 2 ^ (Shape.bank n (.leaf a)).aw = 2 ^ a * 2 ^ ceilLog2 n := Nat.pow_add ..
  have h32 : ¬ 32 ≤ (Shape.bank n (.leaf a)).aw := by
    intro hc
    have := Nat.pow_le_pow_right (n := 2) (by decide) hc
    have := Nat.mul_le_mul this hd
    omega
  have hp : 0 < 2 ^ a := Nat.two_pow_pos _
  refine ⟨2 ^ a * 2 ^ ceilLog2 n * dw, ?_, ?_, ?_⟩
  · unfold capacity mul32 u32
    rw [if_neg h32, Nat.mod_eq_of_lt h, haw]
  · rw [Nat.mul_comm n]
    exact Nat.mul_le_mul_right _ (Nat.mul_le_mul_left _ hle)
  · constructor
    · intro e
      have e1 := Nat.eq_of_mul_eq_mul_right hd e
      rw [Nat.mul_comm n] at e1
      exact ⟨_, (Nat.eq_of_mul_eq_mul_left hp e1).symm⟩
    · rintro ⟨k, rfl⟩
      have : ceilLog2 (2 ^ k) = k := by
        have h1 := Util.ceilLog2_le (2 ^ k) k (by omega) (Nat.le_refl _)
        have h2 := (Nat.pow_le_pow_iff_right (by decide : 1 < 2)).1 hle
        omega
      rw [this, Nat.mul_comm (2 ^ k)]

/-- When the constructor succeeds, for a macro whose capacity fits: exactly for the multiples, from two copies on; the bank then has the words asked for. -/
theorem build_iff (cap a dw n : Nat) (h : 2 ^ a * dw < 2 ^ 32) (hd : 0 < dw) : build cap a dw = .ok n ↔ 2 ≤ n ∧ cap = n * 2 ^ a * dw := by
  have hp : 0 < 2 ^ a := Nat.two_pow_pos _
  have hb : 0 < 2 ^ a * dw := Nat.mul_pos hp hd
  have h32 : ¬ 32 ≤ a := by
    intro hc
    have := Nat.pow_le_pow_right (n := 2) (by decide) hc
    have := Nat.mul_le_mul this hd
    omega
  have h0 : ∀ k, 0 < k → (ceilLog2 k = 0 ↔ k = 1) := by
    intro k hk
    constructor
    · intro e
      have := Util.le_two_pow_ceilLog2 k (by omega)
      rw [e] at this
      omega
    · rintro rfl; rfl
  unfold build capacity mul32 u32
  rw [if_neg h32, Nat.mod_eq_of_lt h, Res.ok_bind, if_neg (by omega)]
  constructor
  · intro hr
    split at hr
    · cases hr
    · split at hr
      · cases hr
      · split at hr
        · cases hr
        · rename_i h1 h2 h3
          cases hr
          have hpos : 0 < cap / (2 ^ a * dw) := Nat.pos_of_ne_zero h2
          rw [h0 _ hpos] at h3
          refine ⟨Nat.lt_of_le_of_ne hpos (Ne.symm h3), ?_⟩
          have := Nat.div_add_mod cap (2 ^ a * dw)
          rw [Nat.mul_assoc, Nat.mul_comm _ (2 ^ a * dw)]
          rw [Decidable.not_not.1 h1] at this
          exact this.symm
  · rintro ⟨hn, rfl⟩
    have e : n * 2 ^ a * dw = n * (2 ^ a * dw) := Nat.mul_assoc ..
    rw [e, Nat.mul_mod_left, Nat.mul_div_cancel _ hb, if_neg (by decide), if_neg (by omega), if_neg]
    rw [h0 _ (by omega)]
    omega

/-- One copy is refused. -/
theorem single_refused (a dw : Nat) (h : 2 ^ a * dw < 2 ^ 32) (hd : 0 < dw) : build (2 ^ a * dw) a dw = .throw .user := by
  have hp : 0 < 2 ^ a := Nat.two_pow_pos _
  have hb : 0 < 2 ^ a * dw := Nat.mul_pos hp hd
  have h32 : ¬ 32 ≤ a := by
    intro hc
    have := Nat.pow_le_pow_right (n := 2) (by decide) hc
    have := Nat.mul_le_mul this hd
    omega
  unfold build capacity mul32 u32
  rw [if_neg h32, Nat.mod_eq_of_lt h, Res.ok_bind, if_neg (by omega), Nat.mod_self, Nat.div_self hb, if_neg (by decide), if_neg (by decide)]
  rfl

/-- The capacity of a large macro wraps: banking a macro of 2^28 words of 64 bits divides by zero, and for a capacity that is smaller than
one macro of 2^26 words of 80 bits three copies are made. -/
theorem large_macro : build (2 ^ 28) 28 64 = .ub ∧ build (2 ^ 32 - 2 ^ 30) 26 80 = .ok 3 ∧ 3 * (2 ^ 26 * 80) ≠ 2 ^ 32 - 2 ^ 30 := by decide +kernel

/-! ### Examples -/

example : build (6 * (2 ^ 10 * 16)) 10 16 = .ok 6 := by decide +kernel
example : (Shape.bank 2 (.bank 3 (.leaf 2))).Has 9 ∧ ¬ (Shape.bank 2 (.bank 3 (.leaf 2))).Has 13 := by
  constructor
  · exact ⟨by decide, by decide, (by decide : 9 % 2 ^ 4 % 2 ^ 2 < 2 ^ 2)⟩
  · rintro ⟨_, h, _⟩
    exact absurd h (by decide)
example : lastBit (d := 2) true (fun _ => 0#2) [.write 1 3#2 0#2, .write 1 0#2 2#2, .read 1 0#2 0#2] 1 1 = true := by decide

end Kratos.Sram
