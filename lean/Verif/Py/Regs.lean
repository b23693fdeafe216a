import Verif.Base

/-!
# C93: register helpers

`reg_next`, `reg_init` and `reg_enable` of kratos/generator.py:984-1059, with `Generator::var`
(src/generator.cc:92-104).  Simplifications: scalar variables; a history ends with the first exception;
the assignments of the sequential blocks are non-blocking (C24).
-/

namespace Kratos.Regs

/-! ## Model -/

/-- A variable object: its generator (0: the one the helpers are called on) and its name. -/
structure Sig where
  gen : Nat
  name : String
  deriving DecidableEq, Repr

/-- Width and sign. -/
abbrev Ty := Nat × Bool

inductive Rhs where
  | sig (s : Sig)
  | const (n : Nat)
  deriving DecidableEq, Repr

/-- A sequential block: the signals whose rising edge it waits for, the `if` around its statements, and
the statements of both branches. -/
structure Blk where
  events : List String
  test : Option Sig
  thn : List (String × Rhs)
  els : List (String × Rhs)
  deriving DecidableEq, Repr

/-- Keys of `__reg_next_stmt`, `__reg_init_stmt`, `__reg_en_stmt`. -/
inductive Key where
  | next (clk : String)
  | init (clk rst : String)
  | en (clk en : String)
  deriving DecidableEq, Repr

/-- The ports of the generator: all, the clocks and the asynchronous resets in the order of their names,
and which resets are active low. -/
structure Cfg where
  ports : List String
  clocks : List String
  resets : List String
  low : String → Bool

structure State where
  vars : List (String × Ty)
  blocks : List Blk
  keys : List (Key × Nat)

/-- An optional argument for a port. -/
inductive PArg where
  | dflt
  | str (s : String)
  | obj (s : Sig)

/-- An argument for a variable, by name or the object. -/
inductive VArg where
  | str (s : String)
  | obj (s : Sig) (ty : Ty)

inductive Op where
  | next (name : String) (var : VArg) (clk : PArg)
  | init (name : String) (var : VArg) (clk rst : PArg) (value : Nat)
  | enable (name : String) (var en : VArg) (clk : PArg)

/-- `__get_port_name_type`, kratos/generator.py:984-992.  Of an object only the name is used. -/
def portArg (cfg : Cfg) (kind : List String) : PArg → Res String
  | .dflt =>
    match kind with
    | [] => .throw .user
    | p :: _ => .ok p
  | .str s => if s ∈ cfg.ports then .ok s else .throw .user
  | .obj s => if s.name ∈ cfg.ports then .ok s.name else .throw .user

def lookup (vars : List (String × Ty)) (n : String) : Option Ty :=
  match vars with
  | [] => none
  | v :: vs => if v.1 = n then some v.2 else lookup vs n

/-- `__get_var_assert`, kratos/generator.py:994-998. -/
def varArg (st : State) : VArg → Res (Sig × Ty)
  | .str s =>
    match lookup st.vars s with
    | some ty => .ok (⟨0, s⟩, ty)
    | none => .throw .user
  | .obj s ty => .ok (s, ty)

/-- The arguments of `reg_enable`, kratos/generator.py:1045-1050: a string has to be a port, and the name
of an object the name of a variable. -/
def enArg (cfg : Cfg) (st : State) : VArg → Res (Sig × Ty)
  | .str s => if s ∈ cfg.ports then varArg st (.str s) else .throw .user
  | .obj s ty => if (lookup st.vars s.name).isSome then .ok (s, ty) else .throw .user

/-- `__create_new_var` with `Generator::var` (src/generator.cc:92-104): a variable of this name is used
if width and sign are the same. -/
def newVar (st : State) (n : String) (ty : Ty) : Res State :=
  match lookup st.vars n with
  | some ty' => if ty' = ty then .ok st else .throw .var
  | none => .ok { st with vars := st.vars ++ [(n, ty)] }

def find (k : Key) : List (Key × Nat) → Option Nat
  | [] => none
  | e :: es => if e.1 = k then some e.2 else find k es

/-- The block for a key, made if there is none. -/
def getBlk (st : State) (k : Key) (b : Blk) : State × Nat :=
  match find k st.keys with
  | some i => (st, i)
  | none => ({ st with blocks := st.blocks ++ [b], keys := st.keys ++ [(k, st.blocks.length)] }, st.blocks.length)

/-- `add_stmt` to the two branches of block `i`. -/
def addAt (bs : List Blk) (i : Nat) (t e : List (String × Rhs)) : List Blk :=
  match bs, i with
  | [], _ => []
  | b :: bs, 0 => { b with thn := b.thn ++ t, els := b.els ++ e } :: bs
  | b :: bs, i + 1 => b :: addAt bs i t e

/-- kratos/generator.py:1012-1059. -/
def step (cfg : Cfg) (st : State) : Op → Res State
  | .next n v clk =>
    (portArg cfg cfg.clocks clk).bind fun c =>
    let p := getBlk st (.next c) ⟨[c], none, [], []⟩
    (varArg p.1 v).bind fun s =>
    (newVar p.1 n s.2).bind fun st' =>
    .ok { st' with blocks := addAt st'.blocks p.2 [(n, .sig s.1)] [] }
  | .init n v clk rst value =>
    (portArg cfg cfg.clocks clk).bind fun c =>
    (portArg cfg cfg.resets rst).bind fun r =>
    let p := getBlk st (.init c r) ⟨[c, r], some ⟨0, r⟩, [], []⟩
    (varArg p.1 v).bind fun s =>
    (newVar p.1 n s.2).bind fun st' =>
    .ok { st' with blocks := addAt st'.blocks p.2 [(n, .const value)] [(n, .sig s.1)] }
  | .enable n v en clk =>
    (portArg cfg cfg.clocks clk).bind fun c =>
    (enArg cfg st v).bind fun s =>
    (enArg cfg st en).bind fun e =>
    let p := getBlk st (.en c e.1.name) ⟨[c], some e.1, [], []⟩
    (newVar p.1 n s.2).bind fun st' =>
    .ok { st' with blocks := addAt st'.blocks p.2 [(n, .sig s.1)] [] }

def run (cfg : Cfg) (st : State) : List Op → Res State
  | [] => .ok st
  | o :: os => (step cfg st o).bind fun st' => run cfg st' os

/-! ## Executions -/

/-- A moment at which something changes: which signals rise and fall, and the values of all signals for
given values of the registers of the generator (inputs, other generators and logic in between). -/
structure Tick where
  rise : String → Bool
  fall : String → Bool
  val : (String → Nat) → Sig → Nat

def rhs (t : Tick) (regs : String → Nat) : Rhs → Nat
  | .sig s => t.val regs s
  | .const n => n

def upd (f : String → Nat) (x : String) (v : Nat) : String → Nat := fun y => if y = x then v else f y

/-- Non-blocking assignments: values from before, the last one wins. -/
def assignAll (t : Tick) (regs : String → Nat) : List (String × Rhs) → (String → Nat) → String → Nat
  | [], acc => acc
  | a :: as, acc => assignAll t regs as (upd acc a.1 (rhs t regs a.2))

def runBlk (t : Tick) (regs : String → Nat) (b : Blk) (acc : String → Nat) : String → Nat :=
  if b.events.any t.rise then
    match b.test with
    | none => assignAll t regs b.thn acc
    | some e => if t.val regs e ≠ 0 then assignAll t regs b.thn acc else assignAll t regs b.els acc
  else acc

def runBlks (t : Tick) (regs : String → Nat) : List Blk → (String → Nat) → String → Nat
  | [], acc => acc
  | b :: bs, acc => runBlks t regs bs (runBlk t regs b acc)

/-- The registers after the moment. -/
def exec (t : Tick) (regs : String → Nat) (bs : List Blk) : String → Nat := runBlks t regs bs regs

/-! ## Specification -/

/-- The port an argument stands for. -/
def portOf (kind : List String) : PArg → String
  | .dflt => kind.headD ""
  | .str s => s
  | .obj s => s.name

def sigOf : VArg → Sig
  | .str s => ⟨0, s⟩
  | .obj s _ => s

def Op.name : Op → String
  | .next n _ _ => n
  | .init n _ _ _ _ => n
  | .enable n _ _ _ => n

/-- The value that the register made by a call has after a moment. -/
def wanted (cfg : Cfg) (t : Tick) (regs : String → Nat) : Op → Nat
  | .next n v clk => if t.rise (portOf cfg.clocks clk) then t.val regs (sigOf v) else regs n
  | .init n v clk rst value =>
    let r := portOf cfg.resets rst
    let active := if cfg.low r then t.val regs ⟨0, r⟩ = 0 else t.val regs ⟨0, r⟩ ≠ 0
    if t.rise (portOf cfg.clocks clk) ∨ (if cfg.low r then t.fall r else t.rise r) then
      if active then value else t.val regs (sigOf v)
    else regs n
  | .enable n v en clk =>
    if t.rise (portOf cfg.clocks clk) ∧ t.val regs (sigOf en) ≠ 0 then t.val regs (sigOf v) else regs n

/-- After any calls, every register does what its call says. -/
def RegClaim : Prop :=
  ∀ (cfg : Cfg) (vars : List (String × Ty)) (ops : List Op) (st : State), run cfg ⟨vars, [], []⟩ ops = .ok st →
    ∀ op ∈ ops, ∀ t regs, exec t regs st.blocks op.name = wanted cfg t regs op

/-! ## Proof -/

/-- An assignment with the conditions under which it is executed. -/
structure Entry where
  events : List String
  test : Option Sig
  branch : Bool
  rhs : Rhs

/-- The assignments to `x`. -/
def entriesB (b : Blk) (x : String) : List Entry :=
  (b.thn.filter fun a => a.1 = x).map (fun a => ⟨b.events, b.test, true, a.2⟩) ++
  (b.els.filter fun a => a.1 = x).map (fun a => ⟨b.events, b.test, false, a.2⟩)

def entries (bs : List Blk) (x : String) : List Entry := bs.flatMap fun b => entriesB b x

def active (t : Tick) (regs : String → Nat) (e : Entry) : Bool :=
  e.events.any t.rise && (match e.test with | none => e.branch | some s => (decide (t.val regs s ≠ 0)) == e.branch)

def last (t : Tick) (regs : String → Nat) (l : List Rhs) (d : Nat) : Nat := ((l.getLast?).map (rhs t regs)).getD d

theorem last_append (t : Tick) (regs : String → Nat) (a b : List Rhs) (d : Nat) :
    last t regs (a ++ b) d = last t regs b (last t regs a d) := by
  unfold last
  rw [List.getLast?_append]
  cases b.getLast? <;> simp

theorem assignAll_last (t : Tick) (regs : String → Nat) (x : String) : ∀ (as : List (String × Rhs)) (acc : String → Nat),
    assignAll t regs as acc x = last t regs ((as.filter fun a => a.1 = x).map (·.2)) (acc x)
  | [], _ => rfl
  | a :: as, acc => by
    rw [assignAll, assignAll_last t regs x as]
    by_cases h : a.1 = x
    · rw [List.filter_cons_of_pos (by simpa using h), List.map_cons, ← List.singleton_append, last_append]
      congr 1
      simp [upd, h, last]
    · rw [List.filter_cons_of_neg (by simpa using h)]
      congr 1
      simp only [upd]
      rw [if_neg (fun h' => h h'.symm)]

theorem filter_const {α : Type} (p : α → Bool) (l : List α) (b : Bool) (h : ∀ a ∈ l, p a = b) :
    l.filter p = if b then l else [] := by
  cases b with
  | true => simpa using h
  | false => simpa using h

theorem runBlk_last (t : Tick) (regs : String → Nat) (x : String) (b : Blk) (acc : String → Nat) :
    runBlk t regs b acc x = last t regs (((entriesB b x).filter (active t regs)).map (·.rhs)) (acc x) := by
  rw [entriesB, List.filter_append]
  rw [filter_const (active t regs) ((b.thn.filter fun a => a.1 = x).map fun a => (⟨b.events, b.test, true, a.2⟩ : Entry))
      (active t regs ⟨b.events, b.test, true, .const 0⟩) (by
        intro e he; obtain ⟨a, _, rfl⟩ := List.mem_map.1 he; rfl),
    filter_const (active t regs) ((b.els.filter fun a => a.1 = x).map fun a => (⟨b.events, b.test, false, a.2⟩ : Entry))
      (active t regs ⟨b.events, b.test, false, .const 0⟩) (by
        intro e he; obtain ⟨a, _, rfl⟩ := List.mem_map.1 he; rfl)]
  rw [runBlk]
  by_cases he : b.events.any t.rise = true
  · rw [if_pos he]
    cases ht : b.test with
    | none => simp [active, he, assignAll_last, List.map_map, Function.comp_def]
    | some e =>
      by_cases hv : t.val regs e ≠ 0
      · simp [active, he, hv, assignAll_last, List.map_map, Function.comp_def]
      · have hv' : t.val regs e = 0 := by omega
        simp [active, he, hv', assignAll_last, List.map_map, Function.comp_def]
  · have he' : b.events.any t.rise = false := by simpa using he
    rw [if_neg he]
    simp [active, he', last]

theorem exec_last (t : Tick) (regs : String → Nat) (bs : List Blk) (x : String) :
    exec t regs bs x = last t regs (((entries bs x).filter (active t regs)).map (·.rhs)) (regs x) := by
  rw [exec]
  generalize hacc : regs x = d
  have : ∀ (bs : List Blk) (acc : String → Nat),
      runBlks t regs bs acc x = last t regs (((entries bs x).filter (active t regs)).map (·.rhs)) (acc x) := by
    intro bs
    induction bs with
    | nil => intro acc; rfl
    | cons b bs ih =>
      intro acc
      rw [runBlks, ih, runBlk_last,
        show entries (b :: bs) x = entriesB b x ++ entries bs x from rfl, List.filter_append, List.map_append, last_append]
  rw [this, hacc]

/-! ### Histories -/

/-- The block of a key looks like this. -/
def Fits (E : String → String → Sig) (b : Blk) : Key → Prop
  | .next c => b.events = [c] ∧ b.test = none
  | .init c r => b.events = [c, r] ∧ b.test = some ⟨0, r⟩
  | .en c e => b.events = [c] ∧ b.test = some (E c e)

def KeysOk (E : String → String → Sig) (st : State) : Prop :=
  ∀ (k : Key) (i : Nat), (k, i) ∈ st.keys → ∃ b : Blk, st.blocks[i]? = some b ∧ Fits E b k

theorem find_mem {k : Key} {es : List (Key × Nat)} {i : Nat} (h : find k es = some i) : (k, i) ∈ es := by
  induction es with
  | nil => cases h
  | cons e es ih =>
    rw [find] at h
    split at h
    · rename_i hk; cases h; cases e; cases hk; exact List.mem_cons_self
    · exact List.mem_cons_of_mem _ (ih h)

theorem getBlk_ok {E : String → String → Sig} {st : State} {k : Key} {b : Blk} (hk : KeysOk E st) (hb : Fits E b k)
    (he : b.thn = [] ∧ b.els = []) :
    KeysOk E (getBlk st k b).1 ∧ (∃ b' : Blk, (getBlk st k b).1.blocks[(getBlk st k b).2]? = some b' ∧ Fits E b' k) ∧
    (∀ x, entries (getBlk st k b).1.blocks x = entries st.blocks x) ∧ (getBlk st k b).1.vars = st.vars := by
  rw [getBlk]
  cases hf : find k st.keys with
  | some i => exact ⟨hk, hk k i (find_mem hf), fun _ => rfl, rfl⟩
  | none =>
    refine ⟨?_, ⟨b, by simp, hb⟩, fun x => ?_, rfl⟩
    · intro k' i hki
      rcases List.mem_append.1 hki with h | h
      · obtain ⟨b', h1, h2⟩ := hk k' i h
        refine ⟨b', ?_, h2⟩
        have : i < st.blocks.length := by
          rcases Nat.lt_or_ge i st.blocks.length with h | h
          · exact h
          · rw [List.getElem?_eq_none h] at h1; cases h1
        simp only
        rw [List.getElem?_append_left this]; exact h1
      · simp only [List.mem_singleton, Prod.mk.injEq] at h
        obtain ⟨rfl, rfl⟩ := h
        exact ⟨b, by simp, hb⟩
    · simp [entries, entriesB, he.1, he.2]

theorem addAt_get (bs : List Blk) (i : Nat) (t e : List (String × Rhs)) (j : Nat) (b : Blk) (h : bs[j]? = some b) :
    ∃ b' : Blk, (addAt bs i t e)[j]? = some b' ∧ b'.events = b.events ∧ b'.test = b.test := by
  induction bs generalizing i j with
  | nil => simp at h
  | cons x xs ih =>
    cases i with
    | zero =>
      rw [addAt]
      cases j with
      | zero => simp at h; subst h; exact ⟨_, rfl, rfl, rfl⟩
      | succ j => exact ⟨b, by simpa using h, rfl, rfl⟩
    | succ i =>
      rw [addAt]
      cases j with
      | zero => exact ⟨b, by simpa using h, rfl, rfl⟩
      | succ j =>
        simp only [List.getElem?_cons_succ] at h ⊢
        exact ih i j h

theorem addAt_other (bs : List Blk) (i : Nat) (t e : List (String × Rhs)) (x : String)
    (h : ∀ a ∈ t ++ e, a.1 ≠ x) : entries (addAt bs i t e) x = entries bs x := by
  have ht : t.filter (fun a => a.1 = x) = [] := by
    rw [List.filter_eq_nil_iff]; intro a ha; simpa using h a (List.mem_append_left _ ha)
  have he : e.filter (fun a => a.1 = x) = [] := by
    rw [List.filter_eq_nil_iff]; intro a ha; simpa using h a (List.mem_append_right _ ha)
  induction bs generalizing i with
  | nil => rfl
  | cons b bs ih =>
    cases i with
    | zero => simp [addAt, entries, entriesB, List.filter_append, ht, he]
    | succ i =>
      rw [addAt, entries, List.flatMap_cons, entries, List.flatMap_cons]
      exact congrArg _ (ih i)

theorem addAt_new (bs : List Blk) (i : Nat) (t e : List (String × Rhs)) (x : String) (b : Blk)
    (hb : bs[i]? = some b) (ht : ∀ a ∈ t, a.1 = x) (he : ∀ a ∈ e, a.1 = x) (h0 : entries bs x = []) :
    entries (addAt bs i t e) x =
      t.map (fun a => ⟨b.events, b.test, true, a.2⟩) ++ e.map (fun a => ⟨b.events, b.test, false, a.2⟩) := by
  have ht' : t.filter (fun a => a.1 = x) = t := by
    rw [List.filter_eq_self]; intro a ha; simpa using ht a ha
  have he' : e.filter (fun a => a.1 = x) = e := by
    rw [List.filter_eq_self]; intro a ha; simpa using he a ha
  induction bs generalizing i with
  | nil => simp at hb
  | cons c bs ih =>
    rw [entries, List.flatMap_cons, List.append_eq_nil_iff] at h0
    obtain ⟨h1, h2⟩ := h0
    cases i with
    | zero =>
      simp at hb; subst hb
      rw [addAt, entries, List.flatMap_cons, h2, List.append_nil]
      rw [entriesB, List.append_eq_nil_iff, List.map_eq_nil_iff, List.map_eq_nil_iff] at h1
      rw [entriesB, List.filter_append, List.filter_append, h1.1, h1.2, ht', he']
      rfl
    | succ i =>
      rw [addAt, entries, List.flatMap_cons, h1, List.nil_append]
      exact ih i (by simpa using hb) h2

theorem newVar_blocks {st st' : State} {n : String} {ty : Ty} (h : newVar st n ty = .ok st') :
    st'.blocks = st.blocks ∧ st'.keys = st.keys := by
  rw [newVar] at h
  split at h
  · split at h
    · cases h; exact ⟨rfl, rfl⟩
    · cases h
  · cases h; exact ⟨rfl, rfl⟩

theorem portArg_ok {cfg : Cfg} {kind : List String} {a : PArg} {p : String} (h : portArg cfg kind a = .ok p) :
    p = portOf kind a := by
  cases a with
  | dflt =>
    cases kind with
    | nil => cases h
    | cons k ks => cases h; rfl
  | str s => rw [portArg] at h; split at h <;> cases h; rfl
  | obj s => rw [portArg] at h; split at h <;> cases h; rfl

theorem varArg_ok {st : State} {v : VArg} {s : Sig × Ty} (h : varArg st v = .ok s) : s.1 = sigOf v := by
  cases v with
  | str n => rw [varArg] at h; split at h <;> cases h; rfl
  | obj x ty => cases h; rfl

theorem enArg_ok {cfg : Cfg} {st : State} {v : VArg} {s : Sig × Ty} (h : enArg cfg st v = .ok s) : s.1 = sigOf v := by
  cases v with
  | str n =>
    rw [enArg] at h; split at h
    · exact varArg_ok h
    · cases h
  | obj x ty => rw [enArg] at h; split at h <;> cases h; rfl

/-- The assignments a call adds. -/
def made (cfg : Cfg) : Op → List Entry
  | .next _ v clk => [⟨[portOf cfg.clocks clk], none, true, .sig (sigOf v)⟩]
  | .init _ v clk rst value =>
    [⟨[portOf cfg.clocks clk, portOf cfg.resets rst], some ⟨0, portOf cfg.resets rst⟩, true, .const value⟩,
     ⟨[portOf cfg.clocks clk, portOf cfg.resets rst], some ⟨0, portOf cfg.resets rst⟩, false, .sig (sigOf v)⟩]
  | .enable _ v en clk => [⟨[portOf cfg.clocks clk], some (sigOf en), true, .sig (sigOf v)⟩]

/-- The enable signal that belongs to a clock and the name of an enable. -/
def EnOk (cfg : Cfg) (E : String → String → Sig) : Op → Prop
  | .enable _ _ en clk => E (portOf cfg.clocks clk) (sigOf en).name = sigOf en
  | _ => True

theorem keysOk_add {E : String → String → Sig} {st : State} (h : KeysOk E st) (i : Nat) (t e : List (String × Rhs)) :
    KeysOk E { st with blocks := addAt st.blocks i t e } := by
  intro k j hk
  obtain ⟨b, h1, h2⟩ := h k j hk
  obtain ⟨b', g1, g2, g3⟩ := addAt_get st.blocks i t e j b h1
  refine ⟨b', g1, ?_⟩
  cases k <;> simpa [Fits, g2, g3] using h2

theorem finish {E : String → String → Sig} {st st1 st2 : State} {i : Nat} {n : String} {b : Blk}
    {t e : List (String × Rhs)} (hk : KeysOk E st1) (hn : st2.blocks = st1.blocks ∧ st2.keys = st1.keys)
    (hb : st1.blocks[i]? = some b) (hent : ∀ x, entries st1.blocks x = entries st.blocks x)
    (ht : ∀ a ∈ t, a.1 = n) (he : ∀ a ∈ e, a.1 = n) (h0 : entries st.blocks n = []) :
    KeysOk E { st2 with blocks := addAt st2.blocks i t e } ∧
    (entries (addAt st2.blocks i t e) n =
      t.map (fun a => ⟨b.events, b.test, true, a.2⟩) ++ e.map (fun a => ⟨b.events, b.test, false, a.2⟩)) ∧
    ∀ x, x ≠ n → entries (addAt st2.blocks i t e) x = entries st.blocks x := by
  have hk2 : KeysOk E st2 := by
    intro k j h
    rw [hn.2] at h
    obtain ⟨b, h1, h2⟩ := hk k j h
    exact ⟨b, by rw [hn.1]; exact h1, h2⟩
  refine ⟨keysOk_add hk2 i t e, ?_, fun x hx => ?_⟩
  · rw [hn.1]
    exact addAt_new _ i t e n b hb ht he (by rw [hent, h0])
  · rw [hn.1, addAt_other _ _ _ _ _ ?_, hent]
    intro a ha
    rcases List.mem_append.1 ha with h | h
    · rw [ht a h]; exact fun h => hx h.symm
    · rw [he a h]; exact fun h => hx h.symm

theorem step_ok {cfg : Cfg} {E : String → String → Sig} {st st' : State} {op : Op} (hk : KeysOk E st)
    (hE : EnOk cfg E op) (h0 : entries st.blocks op.name = []) (h : step cfg st op = .ok st') :
    KeysOk E st' ∧ entries st'.blocks op.name = made cfg op ∧
      ∀ x, x ≠ op.name → entries st'.blocks x = entries st.blocks x := by
  cases op with
  | next n v clk =>
    simp only [step, Res.bind_eq_ok, Res.ok.injEq] at h
    obtain ⟨c, hc, s, hs, st2, h2, rfl⟩ := h
    obtain ⟨g1, ⟨b, g2, g3⟩, g4, -⟩ := getBlk_ok (k := .next c) (b := ⟨[c], none, [], []⟩) hk ⟨rfl, rfl⟩ ⟨rfl, rfl⟩
    have := finish (t := [(n, .sig s.1)]) (e := []) (n := n) g1 (newVar_blocks h2) g2 g4 (by simp) (by simp) h0
    refine ⟨this.1, ?_, this.2.2⟩
    simp only [Op.name]
    rw [this.2.1, g3.1, g3.2]
    simp [made, portArg_ok hc, varArg_ok hs]
  | init n v clk rst value =>
    simp only [step, Res.bind_eq_ok, Res.ok.injEq] at h
    obtain ⟨c, hc, r, hr, s, hs, st2, h2, rfl⟩ := h
    obtain ⟨g1, ⟨b, g2, g3⟩, g4, -⟩ := getBlk_ok (k := .init c r) (b := ⟨[c, r], some ⟨0, r⟩, [], []⟩) hk
      ⟨rfl, rfl⟩ ⟨rfl, rfl⟩
    have := finish (t := [(n, .const value)]) (e := [(n, .sig s.1)]) (n := n) g1 (newVar_blocks h2) g2 g4
      (by simp) (by simp) h0
    refine ⟨this.1, ?_, this.2.2⟩
    simp only [Op.name]
    rw [this.2.1, g3.1, g3.2]
    simp [made, portArg_ok hc, portArg_ok hr, varArg_ok hs]
  | enable n v en clk =>
    simp only [step, Res.bind_eq_ok, Res.ok.injEq] at h
    obtain ⟨c, hc, s, hs, e, he, st2, h2, rfl⟩ := h
    have hE' : E c e.1.name = e.1 := by
      rw [portArg_ok hc, enArg_ok he]; exact hE
    obtain ⟨g1, ⟨b, g2, g3⟩, g4, -⟩ := getBlk_ok (k := .en c e.1.name) (b := ⟨[c], some e.1, [], []⟩) hk
      ⟨rfl, by rw [hE']⟩ ⟨rfl, rfl⟩
    have := finish (t := [(n, .sig s.1)]) (e := []) (n := n) g1 (newVar_blocks h2) g2 g4 (by simp) (by simp) h0
    refine ⟨this.1, ?_, this.2.2⟩
    simp only [Op.name]
    rw [this.2.1, g3.1, g3.2, hE']
    simp [made, portArg_ok hc, enArg_ok hs, enArg_ok he]

theorem run_entries {cfg : Cfg} {E : String → String → Sig} : ∀ (ops : List Op) (st st' : State), KeysOk E st →
    (∀ op ∈ ops, EnOk cfg E op) → (ops.map (·.name)).Nodup → (∀ op ∈ ops, entries st.blocks op.name = []) →
    run cfg st ops = .ok st' →
    (∀ op ∈ ops, entries st'.blocks op.name = made cfg op) ∧
    ∀ x, x ∉ ops.map (·.name) → entries st'.blocks x = entries st.blocks x
  | [], st, st', _, _, _, _, h => by cases h; exact ⟨fun _ h => (by cases h), fun _ _ => rfl⟩
  | op :: ops, st, st', hk, hE, hn, h0, h => by
    simp only [run, Res.bind_eq_ok] at h
    obtain ⟨s1, h1, h2⟩ := h
    rw [List.map_cons, List.nodup_cons] at hn
    obtain ⟨k1, k2, k3⟩ := step_ok hk (hE op List.mem_cons_self) (h0 op List.mem_cons_self) h1
    have hne : ∀ o ∈ ops, o.name ≠ op.name := fun o ho he => hn.1 (by
      have := List.mem_map_of_mem (f := fun o : Op => o.name) ho
      rw [he] at this; exact this)
    obtain ⟨r1, r2⟩ := run_entries ops s1 st' k1 (fun o ho => hE o (List.mem_cons_of_mem _ ho)) hn.2
      (fun o ho => by rw [k3 _ (hne o ho)]; exact h0 o (List.mem_cons_of_mem _ ho)) h2
    refine ⟨fun o ho => ?_, fun x hx => ?_⟩
    · rcases List.mem_cons.1 ho with rfl | ho
      · rw [r2 _ hn.1, k2]
      · exact r1 o ho
    · rw [List.map_cons, List.mem_cons, not_or] at hx
      rw [r2 x hx.2, k3 x hx.1]

theorem made_value (cfg : Cfg) (t : Tick) (regs : String → Nat) (op : Op)
    (hlow : ∀ n v c r value, op = .init n v c r value → cfg.low (portOf cfg.resets r) = false) :
    last t regs (((made cfg op).filter (active t regs)).map (·.rhs)) (regs op.name) = wanted cfg t regs op := by
  cases op with
  | next n v clk =>
    by_cases hc : t.rise (portOf cfg.clocks clk) = true <;> simp [made, wanted, active, last, rhs, Op.name, hc]
  | init n v clk rst value =>
    have hl := hlow n v clk rst value rfl
    by_cases hc : t.rise (portOf cfg.clocks clk) = true <;> by_cases hr : t.rise (portOf cfg.resets rst) = true <;>
      by_cases hv : t.val regs ⟨0, portOf cfg.resets rst⟩ = 0 <;>
      simp [made, wanted, active, last, rhs, Op.name, hc, hr, hv, hl]
  | enable n v en clk =>
    by_cases hc : t.rise (portOf cfg.clocks clk) = true <;> by_cases hv : t.val regs (sigOf en) = 0 <;>
      simp [made, wanted, active, last, rhs, Op.name, hc, hv]

/-! ## The properties -/

/-- After any calls with names of their own, in which enables of the same name are the same signal and
resets are active high, every register does what its call says, whatever the others are.  Missing: the
cases of `twice_wrong`, `foreign_wrong` and `low_wrong`. -/
theorem regs_partial (cfg : Cfg) (vars : List (String × Ty)) (ops : List Op) (st : State)
    (h : run cfg ⟨vars, [], []⟩ ops = .ok st) (hn : (ops.map (·.name)).Nodup)
    (hen : ∀ n v e c n' v' e' c', Op.enable n v e c ∈ ops → Op.enable n' v' e' c' ∈ ops →
      (sigOf e).name = (sigOf e').name → sigOf e = sigOf e')
    (hlow : ∀ n v c r value, Op.init n v c r value ∈ ops → cfg.low (portOf cfg.resets r) = false) :
    ∀ op ∈ ops, ∀ t regs, exec t regs st.blocks op.name = wanted cfg t regs op := by
  classical
  let E : String → String → Sig := fun _ nm =>
    if hx : ∃ e : VArg, (∃ n v c, Op.enable n v e c ∈ ops) ∧ (sigOf e).name = nm then sigOf hx.choose else ⟨0, nm⟩
  have hE : ∀ op ∈ ops, EnOk cfg E op := by
    intro op hop
    cases op with
    | next => trivial
    | init => trivial
    | enable n v e c =>
      have hx : ∃ e' : VArg, (∃ n v c, Op.enable n v e' c ∈ ops) ∧ (sigOf e').name = (sigOf e).name :=
        ⟨e, ⟨n, v, c, hop⟩, rfl⟩
      show (if hx : ∃ e' : VArg, (∃ n v c, Op.enable n v e' c ∈ ops) ∧ (sigOf e').name = (sigOf e).name
        then sigOf hx.choose else ⟨0, (sigOf e).name⟩) = sigOf e
      rw [dif_pos hx]
      obtain ⟨⟨n', v', c', h1⟩, h2⟩ := hx.choose_spec
      exact hen _ _ _ _ _ _ _ _ h1 hop h2
  obtain ⟨r, -⟩ := run_entries (E := E) ops ⟨vars, [], []⟩ st (fun _ _ h => by cases h) hE hn (fun _ _ => rfl) h
  intro op hop t regs
  rw [exec_last, r op hop]
  exact made_value cfg t regs op fun n v c r value he => hlow n v c r value (he ▸ hop)

/-- Nothing else is driven: what is not the name of a call keeps its value. -/
theorem regs_frame (cfg : Cfg) (vars : List (String × Ty)) (ops : List Op) (st : State)
    (h : run cfg ⟨vars, [], []⟩ ops = .ok st) (hn : (ops.map (·.name)).Nodup)
    (hen : ∀ n v e c n' v' e' c', Op.enable n v e c ∈ ops → Op.enable n' v' e' c' ∈ ops →
      (sigOf e).name = (sigOf e').name → sigOf e = sigOf e')
    (x : String) (hx : x ∉ ops.map (·.name)) (t : Tick) (regs : String → Nat) : exec t regs st.blocks x = regs x := by
  classical
  let E : String → String → Sig := fun _ nm =>
    if hx : ∃ e : VArg, (∃ n v c, Op.enable n v e c ∈ ops) ∧ (sigOf e).name = nm then sigOf hx.choose else ⟨0, nm⟩
  have hE : ∀ op ∈ ops, EnOk cfg E op := by
    intro op hop
    cases op with
    | next => trivial
    | init => trivial
    | enable n v e c =>
      have hx : ∃ e' : VArg, (∃ n v c, Op.enable n v e' c ∈ ops) ∧ (sigOf e').name = (sigOf e).name :=
        ⟨e, ⟨n, v, c, hop⟩, rfl⟩
      show (if hx : ∃ e' : VArg, (∃ n v c, Op.enable n v e' c ∈ ops) ∧ (sigOf e').name = (sigOf e).name
        then sigOf hx.choose else ⟨0, (sigOf e).name⟩) = sigOf e
      rw [dif_pos hx]
      obtain ⟨⟨n', v', c', h1⟩, h2⟩ := hx.choose_spec
      exact hen _ _ _ _ _ _ _ _ h1 hop h2
  obtain ⟨-, r⟩ := run_entries (E := E) ops ⟨vars, [], []⟩ st (fun _ _ h => by cases h) hE hn (fun _ _ => rfl) h
  rw [exec_last, r x hx]
  rfl

/-- A call with a new name, a variable object and a clock that exists is accepted. -/
theorem next_accepted (cfg : Cfg) (st : State) (n : String) (s : Sig) (ty : Ty) (c : String) (hc : c ∈ cfg.ports)
    (hn : lookup st.vars n = none) : ∃ st', step cfg st (.next n (.obj s ty) (.str c)) = .ok st' := by
  have hv : ∀ k b, (getBlk st k b).1.vars = st.vars := by
    intro k b; rw [getBlk]; split <;> rfl
  simp only [step, portArg, if_pos hc, Res.ok_bind, varArg, newVar, hv, hn]
  exact ⟨_, rfl⟩

/-- A name that is a variable of another width or sign is refused. -/
theorem other_type_refused (cfg : Cfg) (st : State) (n : String) (s : Sig) (ty ty' : Ty) (c : String)
    (hc : c ∈ cfg.ports) (hn : lookup st.vars n = some ty') (ht : ty' ≠ ty) :
    step cfg st (.next n (.obj s ty) (.str c)) = .throw .var := by
  have hv : ∀ k b, (getBlk st k b).1.vars = st.vars := by
    intro k b; rw [getBlk]; split <;> rfl
  simp only [step, portArg, if_pos hc, Res.ok_bind, varArg, newVar, hv, hn, if_neg ht, Res.throw_bind]

/-! ## Where the claim fails -/

def exCfg : Cfg := ⟨["clk", "en", "rst_n"], ["clk"], ["rst_n"], fun s => s == "rst_n"⟩
def exVars : List (String × Ty) := [("clk", (1, false)), ("en", (1, false)), ("rst_n", (1, false)), ("a", (8, false)), ("b", (8, false))]

/-- Everything rises, and the values are those given. -/
def exTick (f : Sig → Nat) : Tick := ⟨fun _ => true, fun _ => false, fun _ => f⟩

/-- The same name twice: one variable with two drivers, and the first register does not do what its call
says. -/
theorem twice_wrong : ∃ st, run exCfg ⟨exVars, [], []⟩ [.next "q" (.str "a") .dflt, .next "q" (.str "b") .dflt] = .ok st ∧
    st.blocks = [⟨["clk"], none, [("q", .sig ⟨0, "a"⟩), ("q", .sig ⟨0, "b"⟩)], []⟩] ∧
    exec (exTick fun s => if s.name = "a" then 1 else 2) (fun _ => 0) st.blocks "q" = 2 := ⟨_, rfl, rfl, rfl⟩

/-- An enable of another generator (1) with the name of a variable here: the second register is enabled by
the first one's signal. -/
theorem foreign_wrong : ∃ st, run exCfg ⟨exVars, [], []⟩
      [.enable "p" (.obj ⟨0, "a"⟩ (8, false)) (.obj ⟨1, "en"⟩ (1, false)) .dflt,
       .enable "q" (.obj ⟨0, "b"⟩ (8, false)) (.obj ⟨0, "en"⟩ (1, false)) .dflt] = .ok st ∧
    st.blocks = [⟨["clk"], some ⟨1, "en"⟩, [("p", .sig ⟨0, "a"⟩), ("q", .sig ⟨0, "b"⟩)], []⟩] := ⟨_, rfl, rfl⟩

/-- A reset that is active low: the register is reset while the reset is not active, and works while it
is. -/
theorem low_wrong (f : Sig → Nat) (regs : String → Nat) : ∃ st, run exCfg ⟨exVars, [], []⟩ [.init "q" (.str "a") .dflt .dflt 0] = .ok st ∧
    (f ⟨0, "rst_n"⟩ = 1 → exec (exTick f) regs st.blocks "q" = 0) ∧
    (f ⟨0, "rst_n"⟩ = 0 → exec (exTick f) regs st.blocks "q" = f ⟨0, "a"⟩) := by
  refine ⟨_, rfl, fun h => ?_, fun h => ?_⟩
  · simp [getBlk, find, addAt, exec, runBlks, runBlk, exTick, h, assignAll, upd, rhs]
  · simp [getBlk, find, addAt, exec, runBlks, runBlk, exTick, h, assignAll, upd, rhs]

theorem not_RegClaim : ¬ RegClaim := by
  intro h
  obtain ⟨st, h1, -, h3⟩ := twice_wrong
  have := h exCfg exVars _ st h1 (.next "q" (.str "a") .dflt) List.mem_cons_self
    (exTick fun s => if s.name = "a" then 1 else 2) (fun _ => 0)
  rw [show (Op.next "q" (.str "a") .dflt).name = "q" from rfl, h3] at this
  revert this
  decide

/-! ## Examples -/

/-- A shift register, a register with a reset and one with an enable. -/
def exOps : List Op :=
  [.next "q1" (.str "a") .dflt, .next "q2" (.str "q1") .dflt, .init "r" (.str "b") (.str "clk") (.str "en") 3,
   .enable "e" (.obj ⟨0, "q2"⟩ (8, false)) (.str "en") .dflt]

example : ∃ st, run exCfg ⟨exVars, [], []⟩ exOps = .ok st ∧ st.blocks.length = 3 := ⟨_, rfl, rfl⟩

example : (exOps.map (·.name)).Nodup ∧
    (∀ n v e c n' v' e' c', Op.enable n v e c ∈ exOps → Op.enable n' v' e' c' ∈ exOps →
      (sigOf e).name = (sigOf e').name → sigOf e = sigOf e') ∧
    (∀ n v c r value, Op.init n v c r value ∈ exOps → exCfg.low (portOf exCfg.resets r) = false) := by
  refine ⟨by decide +kernel, ?_, ?_⟩
  · intro n v e c n' v' e' c' h h' _
    simp [exOps] at h h'
    rw [h.2.2.1, h'.2.2.1]
  · intro n v c r value h
    simp [exOps] at h
    rw [h.2.2.2.1]; decide +kernel

end Kratos.Regs
