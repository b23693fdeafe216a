import Verif.Misc.Handles

/-!
# C92: sequences and properties

`Sequence`, `Property` (src/tb.cc:25-72, src/tb.hh:23-72), `Generator::property`
(src/generator.cc:362-370), `change_property_into_stmt` (src/transform.cc:483-498),
`infer_property_clocking` (src/transform.cc:1001-1070) and the text of a property
(src/codegen.cc:731-765).

Simplifications: a condition of a sequence is one variable (the names in the text of an expression are
printed in the same way, each); the text is a list of tokens.
-/

namespace Kratos.Sva

open Kratos.Text (Str)

/-! ## Model: building sequences -/

/-- A condition: a variable of the generator with this path from the top. -/
structure Cond where
  gen : List Str
  var : Str
  deriving DecidableEq

/-- A `Sequence` object without `next_`: `var_`, `wait_low_`, `wait_high_` (src/tb.hh:36-42). -/
structure Node where
  cond : Cond
  lo : Nat
  hi : Nat
  deriving DecidableEq

/-- The objects that are alive: the one made by `Sequence(var)`, what its `next_` owns, and so on, each
with the number of the call that made it. -/
structure Seq where
  chain : List (Nat × Node)
  count : Nat

/-- Calls.  The object is given by the number of the call that returned it. -/
inductive Op where
  | imply (k : Nat) (c : Cond)
  | wait (k : Nat) (lo hi : Nat)

/-- The objects up to and including `k`. -/
def upTo (k : Nat) : List (Nat × Node) → Option (List (Nat × Node))
  | [] => none
  | p :: ps => if p.1 = k then some [p] else (upTo k ps).map (p :: ·)

/-- `Sequence::imply` (src/tb.cc:25-29) and `Sequence::wait` (src/tb.cc:59-63).  `next_` is assigned: what
it owned before is destroyed, and a call on a destroyed object (Python keeps plain references,
python/kratos_tb.cc:27-31) is undefined. -/
def step (s : Seq) : Op → Res Seq
  | .imply k c =>
    match upTo k s.chain with
    | none => .ub
    | some ps => .ok ⟨ps ++ [(s.count, ⟨c, 0, 0⟩)], s.count + 1⟩
  | .wait k lo hi =>
    if k ∈ s.chain.map (·.1) then
      .ok { s with chain := s.chain.map fun p => if p.1 = k then (p.1, { p.2 with lo := lo, hi := hi }) else p }
    else .ub

def start (c : Cond) : Seq := ⟨[(0, ⟨c, 0, 0⟩)], 1⟩

def run (s : Seq) : List Op → Res Seq
  | [] => .ok s
  | o :: os => (step s o).bind fun s' => run s' os

/-! ## Model: the text -/

inductive Tok where
  | hashes | num (n : Nat) | lb | colon | rb | arrow
  | name (path : List Str) (v : Str)
  deriving DecidableEq

/-- `Sequence::wait_to_str`, src/tb.cc:31-38. -/
def waitToks (n : Node) : List Tok :=
  if n.lo = 0 ∧ n.hi = 0 then []
  else if n.lo = n.hi then [.hashes, .num n.lo]
  else [.hashes, .lb, .num n.lo, .colon, .num n.hi, .rb]

/-- `Var::handle_name(true)`, src/expr.cc:292-298. -/
def handle (c : Cond) : Tok := .name (c.gen.drop 1) c.var

/-- `Stream::var_str`, src/codegen.cc:170-175. -/
def varStr (cur : List Str) (c : Cond) : Tok := if c.gen = cur then .name [] c.var else handle c

/-- `Sequence::to_string(var_str)`, src/tb.cc:45-57: `var_str` is used only if there is a wait, and not
for what follows. -/
def seqToks (f : Cond → Tok) : List Node → List Tok
  | [] => []
  | n :: ns =>
    (if waitToks n = [] then [handle n.cond] else waitToks n ++ [f n.cond]) ++
      (if ns = [] then [] else .arrow :: seqToks handle ns)

inductive Action where
  | none | cover | assume | assert
  deriving DecidableEq

structure Property where
  name : Str
  /-- `edge_`: rising edge or not, and of what -/
  edge : Option (Bool × Cond)
  seq : List Node
  action : Action

/-- What is written for one property, src/codegen.cc:731-765. -/
structure Text where
  name : Str
  clock : Option (Bool × Tok)
  body : List Tok
  directive : Option Action
  deriving DecidableEq

def text (cur : List Str) (p : Property) : Text :=
  { name := p.name
    clock := p.edge.map fun e => (e.1, varStr cur e.2)
    body := seqToks (varStr cur) p.seq
    directive := if p.action = .none then none else some p.action }

/-- A source of a clock of a child: the right side, whether it belongs to the generator, whether it is a
cast to a clock. -/
structure Src where
  var : Cond
  own : Bool
  cast : Bool

/-- What `infer_property_clocking` looks at: the clock ports of the generator, and the sources of the
clocks of its children. -/
structure Clocks where
  ports : List Cond
  children : List (List (List Src))

/-- `clk_vars`, src/transform.cc:1015-1050. -/
def clkVars (c : Clocks) : List Cond :=
  if c.ports = [] then
    c.children.flatMap fun clks => clks.flatMap fun srcs => (srcs.filter fun s => s.own && s.cast).map (·.var)
  else c.ports

/-- `AssertPropertyVisitor::visit`, src/transform.cc:1003-1063. -/
def inferClock (c : Clocks) (p : Property) : Res Property :=
  if p.edge = none ∧ 1 < p.seq.length then
    match clkVars c with
    | [v] => .ok { p with edge := some (true, v) }
    | _ => .throw .stmt
  else .ok p

/-- `Generator::property`, src/generator.cc:362-370; `properties_` is in the order of the names, which
does not matter here. -/
def addProperty (ps : List Property) (p : Property) : Res (List Property) :=
  if p.name ∈ ps.map (·.name) then .throw .user else .ok (ps ++ [p])

/-- `change_property_into_stmt`, src/transform.cc:483-498, on the statements of one generator. -/
def toStmts (ps stmts : List Property) : List Property := stmts ++ ps

/-! ## Specification -/

/-- An instance and one of its variables. -/
abbrev Signal := List Str × Str

/-- What the user asked for at time `t` when the variables of the generator are those of the instance
`cur`: whenever a condition is met within the time given for it, the next ones have to be met counted
from there. -/
def Holds (cur : List Str) (tr : Nat → Signal → Prop) : List Node → Nat → Prop
  | [], _ => True
  | [n], t => ∃ d, n.lo ≤ d ∧ d ≤ n.hi ∧ tr (t + d) (cur, n.cond.var)
  | n :: m :: ns, t => ∀ d, n.lo ≤ d → d ≤ n.hi → tr (t + d) (cur, n.cond.var) → Holds cur tr (m :: ns) (t + d)

/-- SystemVerilog (IEEE 1800-2017, 16.7, 16.12): `##n e`, `##[l:h] e` and `e` are sequences, `s |-> p` is
a property for a sequence `s` and a property `p`. -/
inductive P where
  | seq (lo hi : Nat) (name : List Str × Str)
  | imp (lo hi : Nat) (name : List Str × Str) (p : P)
  deriving DecidableEq

/-- The delay in front of an expression. -/
def parseDelay : List Tok → Option ((Nat × Nat) × List Tok)
  | .hashes :: .num n :: r => some ((n, n), r)
  | .hashes :: .lb :: .num l :: .colon :: .num h :: .rb :: r => if l ≤ h then some ((l, h), r) else none
  | .name p v :: r => some ((0, 0), .name p v :: r)
  | _ => none

def parse : Nat → List Tok → Option P
  | 0, _ => none
  | fuel + 1, ts =>
    match parseDelay ts with
    | some ((l, h), .name p v :: []) => some (.seq l h (p, v))
    | some ((l, h), .name p v :: .arrow :: r) => (parse fuel r).map (.imp l h (p, v))
    | _ => none

/-- `|->`: from every match of the left side, the right side holds. -/
def Sat (tr : Nat → List Str × Str → Prop) : P → Nat → Prop
  | .seq l h x, t => ∃ e, t + l ≤ e ∧ e ≤ t + h ∧ tr e x
  | .imp l h x p, t => ∀ e, t + l ≤ e → e ≤ t + h → tr e x → Sat tr p e

/-- The signal that a name denotes in the instance `cur` of the design `D`: a simple name is one of `cur`,
others are looked up as C84 says. -/
def Denotes (D : List Str → Prop) (cur : List Str) (x : List Str × Str) (s : Signal) : Prop :=
  (x.1 = [] ∧ s = (cur, x.2)) ∨ (x.1 ≠ [] ∧ Hnd.Resolves D cur x.1 s.1 ∧ s.2 = x.2)

/-- The values of names in an instance. -/
def named (D : List Str → Prop) (cur : List Str) (tr : Nat → Signal → Prop) (t : Nat) (x : List Str × Str) : Prop :=
  ∃ s, Denotes D cur x s ∧ tr t s

/-- In every instance of the module written for generator `g`, the property says what was asked for about
the variables of that instance.  `modOf`: the name of the module of an instance. -/
def TextClaim : Prop :=
  ∀ (D : List Str → Prop) (modOf : List Str → Str) (g cur : List Str) (ns : List Node), ns ≠ [] → D g → D cur →
    modOf cur = modOf g →
    (∀ n ∈ ns, n.cond.gen = g) → (∀ n ∈ ns, n.lo ≤ n.hi) →
    ∃ p, parse ns.length (seqToks (varStr g) ns) = some p ∧
      ∀ tr t, Sat (named D cur tr) p t ↔ Holds cur tr ns t

/-- Every property that is written has a clock, and one is found if the design has one only. -/
def ClockClaim : Prop :=
  ∀ (c : Clocks) (p : Property) (v : Cond), (∀ x, x ∈ clkVars c ↔ x = v) → p.edge = none →
    inferClock c p = .ok { p with edge := some (true, v) }

/-- No use of the objects that the calls return is undefined. -/
def CallsClaim : Prop :=
  ∀ (c : Cond) (os : List Op), (∀ o ∈ os, match o with | .imply k _ => k ≤ os.length | .wait k _ _ => k ≤ os.length) →
    run (start c) os ≠ .ub

/-! ## Proof -/

/-- The name that is printed for the first condition, and for the later ones. -/
def ref (cur : List Str) (n : Node) : List Str × Str :=
  if waitToks n ≠ [] ∧ n.cond.gen = cur then ([], n.cond.var) else (n.cond.gen.drop 1, n.cond.var)

def hier (n : Node) : List Str × Str := (n.cond.gen.drop 1, n.cond.var)

/-- The property that the text is read as. -/
def reading : (Node → List Str × Str) → List Node → P
  | _, [] => .seq 0 0 ([], [])
  | f, [n] => .seq n.lo n.hi (f n)
  | f, n :: m :: ns => .imp n.lo n.hi (f n) (reading hier (m :: ns))

theorem head_delay (cur : Option (List Str)) (n : Node) (hn : n.lo ≤ n.hi) (rest : List Tok) :
    parseDelay ((if waitToks n = [] then [handle n.cond] else
        waitToks n ++ [(match cur with | some c => varStr c | none => handle) n.cond]) ++ rest) =
      some ((n.lo, n.hi), .name ((match cur with | some c => ref c n | none => hier n)).1 n.cond.var :: rest) := by
  by_cases h : waitToks n = []
  · have h0 : n.lo = 0 ∧ n.hi = 0 := by
      rw [waitToks] at h
      split at h
      · assumption
      · split at h <;> cases h
    rw [if_pos h]
    cases cur with
    | none => simp [handle, parseDelay, hier, h0]
    | some c => simp [handle, parseDelay, ref, h, h0]
  · rw [if_neg h, List.append_assoc]
    have : ∀ tk : List Str, parseDelay (waitToks n ++ ([Tok.name tk n.cond.var] ++ rest)) =
        some ((n.lo, n.hi), .name tk n.cond.var :: rest) := by
      intro tk
      rw [waitToks] at h ⊢
      split
      · rename_i h'; rw [if_pos h'] at h; exact absurd rfl h
      · split
        · rename_i h'; simp [parseDelay, h']
        · simp [parseDelay, hn]
    cases cur with
    | none => simp only [handle, hier]; exact this _
    | some c =>
      simp only [varStr, ref]
      by_cases hc : n.cond.gen = c
      · rw [if_pos hc, if_pos ⟨h, hc⟩]; exact this _
      · rw [if_neg hc, if_neg (fun x => hc x.2), handle]; exact this _

theorem ref_snd (cur : List Str) (n : Node) : (ref cur n).2 = n.cond.var := by
  rw [ref]; split <;> rfl

theorem parse_seq (cur : Option (List Str)) : ∀ (ns : List Node), ns ≠ [] → (∀ n ∈ ns, n.lo ≤ n.hi) →
    parse ns.length (seqToks (match cur with | some c => varStr c | none => handle) ns) =
      some (reading (match cur with | some c => ref c | none => hier) ns)
  | [], h, _ => absurd rfl h
  | [n], _, hle => by
    have hd := head_delay cur n (hle n List.mem_cons_self) []
    simp only [List.length_cons, List.length_nil, parse, seqToks, if_true]
    rw [hd]
    cases cur with
    | none => simp [reading, hier]
    | some c => simp only [reading]; rw [← ref_snd c n]
  | n :: m :: ns, _, hle => by
    have hd := head_delay cur n (hle n List.mem_cons_self) (.arrow :: seqToks handle (m :: ns))
    have ih := parse_seq none (m :: ns) (by simp) fun x hx => hle x (List.mem_cons_of_mem _ hx)
    rw [List.length_cons, parse, seqToks, if_neg (show ¬ (m :: ns = []) by simp)]
    simp only at hd ih
    rw [hd]
    simp only
    rw [ih]
    cases cur with
    | none => simp [reading, hier]
    | some c => simp only [reading, Option.map_some]; rw [← ref_snd c n]

/-- If every name means the variable of the instance, the reading is what was asked for. -/
theorem sat_reading (nm : Nat → List Str × Str → Prop) (cur : List Str) (tr : Nat → Signal → Prop) :
    ∀ (f : Node → List Str × Str) (ns : List Node), ns ≠ [] →
    (∀ n ∈ ns, ∀ t, nm t (f n) ↔ tr t (cur, n.cond.var)) → (∀ n ∈ ns, ∀ t, nm t (hier n) ↔ tr t (cur, n.cond.var)) →
    ∀ t, Sat nm (reading f ns) t ↔ Holds cur tr ns t
  | _, [], h, _, _, _ => absurd rfl h
  | f, [n], _, hf, _, t => by
    simp only [reading, Sat, Holds]
    constructor
    · rintro ⟨e, h1, h2, h3⟩
      refine ⟨e - t, by omega, by omega, ?_⟩
      rw [show t + (e - t) = e by omega]
      exact (hf n List.mem_cons_self e).1 h3
    · rintro ⟨d, h1, h2, h3⟩
      exact ⟨t + d, by omega, by omega, (hf n List.mem_cons_self _).2 h3⟩
  | f, n :: m :: ns, _, hf, hh, t => by
    have ih := sat_reading nm cur tr hier (m :: ns) (by simp) (fun x hx => hh x (List.mem_cons_of_mem _ hx))
      (fun x hx => hh x (List.mem_cons_of_mem _ hx))
    simp only [reading, Sat, Holds]
    constructor
    · intro h d h1 h2 h3
      exact (ih _).1 (h (t + d) (by omega) (by omega) ((hf n List.mem_cons_self _).2 h3))
    · intro h e h1 h2 h3
      have := h (e - t) (by omega) (by omega) (by
        rw [show t + (e - t) = e by omega]; exact (hf n List.mem_cons_self e).1 h3)
      rw [show t + (e - t) = e by omega] at this
      exact (ih _).2 this

theorem resolves_unique {D : List Str → Prop} {cur parts a b : List Str} (ha : Hnd.Resolves D cur parts a)
    (hb : Hnd.Resolves D cur parts b) : a = b := by
  cases parts with
  | nil => cases ha
  | cons c cs =>
    obtain ⟨u, h1, h2, h3, rfl⟩ := ha
    obtain ⟨v, g1, g2, g3, rfl⟩ := hb
    have : u = v := by
      rcases Nat.lt_trichotomy u.length v.length with h | h | h
      · exact absurd g2 (h3 v g1 h)
      · obtain ⟨x, rfl⟩ := h1
        obtain ⟨y, hy⟩ := g1
        exact ((List.append_inj hy h.symm).1).symm
      · exact absurd h2 (g3 u h1 h)
    rw [this]

/-! ## The properties -/

/-- The text is one property of SystemVerilog, with the delays and in the order that were asked for, and
only the names may be other ones. -/
theorem text_reads (cur : List Str) (ns : List Node) (h : ns ≠ []) (hle : ∀ n ∈ ns, n.lo ≤ n.hi) :
    parse ns.length (seqToks (varStr cur) ns) = some (reading (ref cur) ns) :=
  parse_seq (some cur) ns h hle

/-- A property of the top generator means what was asked for.  Missing: generators below, whose names are
written from the top although they are local, `shared_wrong`. -/
theorem top_partial (D : List Str → Prop) (top : Str) (ns : List Node) (h : ns ≠ [])
    (hg : ∀ n ∈ ns, n.cond.gen = [top]) (hle : ∀ n ∈ ns, n.lo ≤ n.hi) :
    ∃ p, parse ns.length (seqToks (varStr [top]) ns) = some p ∧
      ∀ tr t, Sat (named D [top] tr) p t ↔ Holds [top] tr ns t := by
  refine ⟨_, text_reads [top] ns h hle, fun tr t => ?_⟩
  have key : ∀ n ∈ ns, ∀ t, named D [top] tr t ([], n.cond.var) ↔ tr t ([top], n.cond.var) := by
    intro n _ t
    constructor
    · rintro ⟨s, ⟨_, rfl⟩ | ⟨h, _⟩, hs⟩
      · exact hs
      · exact absurd rfl h
    · intro hs; exact ⟨_, .inl ⟨rfl, rfl⟩, hs⟩
  refine sat_reading _ _ _ _ _ h (fun n hn t => ?_) (fun n hn t => ?_) t
  · rw [ref, hg n hn]
    split
    · exact key n hn t
    · exact key n hn t
  · rw [hier, hg n hn]; exact key n hn t

/-- A property of a generator below the top means what was asked for in the instance that is the
generator, if no instance closer to it has the name of the first part of its path. -/
theorem below_partial (D : List Str → Prop) (g : List Str) (ns : List Node) (h : ns ≠ [])
    (hg : ∀ n ∈ ns, n.cond.gen = g) (hle : ∀ n ∈ ns, n.lo ≤ n.hi) (hr : Hnd.Resolves D g (g.drop 1) g) :
    ∃ p, parse ns.length (seqToks (varStr g) ns) = some p ∧
      ∀ tr t, Sat (named D g tr) p t ↔ Holds g tr ns t := by
  refine ⟨_, text_reads g ns h hle, fun tr t => ?_⟩
  have hne : g.drop 1 ≠ [] := by
    intro h0; rw [h0] at hr; exact hr
  have key : ∀ (v : Str) (t : Nat), named D g tr t ([], v) ↔ tr t (g, v) := by
    intro v t
    constructor
    · rintro ⟨s, ⟨_, rfl⟩ | ⟨h, _⟩, hs⟩
      · exact hs
      · exact absurd rfl h
    · intro hs; exact ⟨_, .inl ⟨rfl, rfl⟩, hs⟩
  have key2 : ∀ (v : Str) (t : Nat), named D g tr t (g.drop 1, v) ↔ tr t (g, v) := by
    intro v t
    constructor
    · rintro ⟨s, ⟨h, _⟩ | ⟨_, h1, h2⟩, hs⟩
      · exact absurd h hne
      · have := resolves_unique h1 hr
        have e : s = (g, v) := Prod.ext this h2
        rw [← e]; exact hs
    · intro hs; exact ⟨(g, v), .inr ⟨hne, hr, rfl⟩, hs⟩
  refine sat_reading _ _ _ _ _ h (fun n hn t => ?_) (fun n hn t => ?_) t
  · rw [ref, hg n hn]
    split
    · exact key _ t
    · exact key2 _ t
  · rw [hier, hg n hn]; exact key2 _ t

/-- If the module is shared, the property of every other instance that sees the same names is about the
variables of the first instance: it says nothing about its own. -/
theorem shared_wrong (D : List Str → Prop) (g cur : List Str) (ns : List Node) (h : ns ≠ [])
    (hg : ∀ n ∈ ns, n.cond.gen = g) (hle : ∀ n ∈ ns, n.lo ≤ n.hi) (h0 : ∀ n ∈ ns, n.lo = 0 ∧ n.hi = 0)
    (hr : Hnd.Resolves D cur (g.drop 1) g) :
    ∃ p, parse ns.length (seqToks (varStr g) ns) = some p ∧
      ∀ tr t, Sat (named D cur tr) p t ↔ Holds g tr ns t := by
  refine ⟨_, text_reads g ns h hle, fun tr t => ?_⟩
  have hne : g.drop 1 ≠ [] := by
    intro h0; rw [h0] at hr; exact hr
  have key2 : ∀ (v : Str) (t : Nat), named D cur tr t (g.drop 1, v) ↔ tr t (g, v) := by
    intro v t
    constructor
    · rintro ⟨s, ⟨h, _⟩ | ⟨_, h1, h2⟩, hs⟩
      · exact absurd h hne
      · have := resolves_unique h1 hr
        have e : s = (g, v) := Prod.ext this h2
        rw [← e]; exact hs
    · intro hs; exact ⟨(g, v), .inr ⟨hne, hr, rfl⟩, hs⟩
  refine sat_reading _ _ _ _ _ h (fun n hn t => ?_) (fun n hn t => ?_) t
  · have : ref g n = (g.drop 1, n.cond.var) := by
      rw [ref, waitToks, if_pos (h0 n hn), if_neg (fun x => x.1 rfl), hg n hn]
    rw [this]; exact key2 _ t
  · rw [hier, hg n hn]; exact key2 _ t

/-- Two instances of one module. -/
def exD (p : List Str) : Prop := p = [['t']] ∨ p = [['t'], ['x']] ∨ p = [['t'], ['y']]
def exG : List Str := [['t'], ['x']]
def exNode (v : Char) (lo hi : Nat) : Node := ⟨⟨exG, [v]⟩, lo, hi⟩

theorem exResolves (cur : List Str) (hc : cur = [['t'], ['x']] ∨ cur = [['t'], ['y']]) :
    Hnd.Resolves exD cur (exG.drop 1) exG := by
  refine ⟨[['t']], ?_, .inr (.inl rfl), ?_, rfl⟩
  · rcases hc with rfl | rfl
    · exact ⟨[['x']], rfl⟩
    · exact ⟨[['y']], rfl⟩
  · intro u' hu hl hd
    have h2 : 2 ≤ u'.length := hl
    rcases hd with hd | hd | hd <;>
    · have h3 := congrArg List.length hd
      rw [List.length_append] at h3
      simp only [List.length_cons, List.length_nil] at h3
      omega

theorem not_TextClaim : ¬ TextClaim := by
  intro h
  obtain ⟨p, hp, hs⟩ := h exD (fun p => if p.length = 2 then ['m'] else ['t']) exG [['t'], ['y']] [exNode 'a' 0 0]
    (by simp) (.inr (.inl rfl)) (.inr (.inr rfl)) rfl
    (by simp [exNode]) (by simp [exNode])
  obtain ⟨q, hq, hw⟩ := shared_wrong exD exG [['t'], ['y']] [exNode 'a' 0 0] (by simp)
    (by simp [exNode]) (by simp [exNode]) (by simp [exNode]) (exResolves _ (.inr rfl))
  rw [hp] at hq
  cases hq
  have h1 := hs (fun _ s => s.1 = [['t'], ['y']]) 0
  have h2 := hw (fun _ s => s.1 = [['t'], ['y']]) 0
  have h3 := h1.2 ⟨0, Nat.le_refl _, Nat.le_refl _, rfl⟩
  obtain ⟨_, _, _, h4⟩ := h2.1 h3
  revert h4
  decide

/-- A wait from a larger to a smaller number is accepted and is not a property of SystemVerilog. -/
theorem range_wrong (n : Node) (h : n.hi < n.lo) (f : Cond → Tok) (k : Nat) : parse k (seqToks f [n]) = none := by
  have hw : waitToks n = [.hashes, .lb, .num n.lo, .colon, .num n.hi, .rb] := by
    rw [waitToks, if_neg (by omega), if_neg (by omega)]
  cases k with
  | zero => rfl
  | succ k =>
    rw [parse, seqToks, hw]
    simp [parseDelay, Nat.not_le.2 h]

/-- The middle condition of a chain is a premise: if it is never met, the property holds, whatever the
first and the last say. -/
theorem middle_vacuous (cur : List Str) (tr : Nat → Signal → Prop) (a b c : Node) (ns : List Node)
    (h : ∀ t, ¬ tr t (cur, b.cond.var)) (t : Nat) : Holds cur tr (a :: b :: c :: ns) t := by
  intro d _ _ _ e _ _ he
  exact absurd he (h _)

/-- `seq.imply(b == 0).wait(1).imply(b == 1)` of docs/testbench.rst: the wait is before the first condition,
and both are about the same cycle. -/
theorem docs_reading (cur : List Str) (tr : Nat → Signal → Prop) (a b c : Cond) (t : Nat) :
    Holds cur tr [⟨a, 0, 0⟩, ⟨b, 1, 1⟩, ⟨c, 0, 0⟩] t ↔
      (tr t (cur, a.var) → tr (t + 1) (cur, b.var) → tr (t + 1) (cur, c.var)) := by
  simp only [Holds]
  constructor
  · intro h ha hb
    obtain ⟨d, h1, h2, h3⟩ := h 0 (Nat.le_refl _) (Nat.le_refl _) ha 1 (Nat.le_refl _) (Nat.le_refl _) hb
    have : d = 0 := by omega
    subst this
    exact h3
  · intro h d h1 h2 ha e h3 h4 hb
    have : d = 0 := by omega
    subst this
    have : e = 1 := by omega
    subst this
    exact ⟨0, Nat.le_refl _, Nat.le_refl _, h ha hb⟩

/-- The clock is inferred exactly if one variable is found, once. -/
theorem infer_iff (c : Clocks) (p q : Property) (hp : p.edge = none) (hn : 1 < p.seq.length) :
    inferClock c p = .ok q ↔
      ∃ v, q = { p with edge := some (true, v) } ∧
        ((∃ a b, c.ports = a ++ v :: b ∧ a = [] ∧ b = []) ∨
         (c.ports = [] ∧ ∃ s : Src, s.var = v ∧
            (c.children.flatten.flatten.filter fun s => s.own && s.cast) = [s])) := by
  have hcv : c.ports = [] → clkVars c = ((c.children.flatten.flatten.filter fun s => s.own && s.cast).map (·.var)) := by
    intro h0
    rw [clkVars, if_pos h0]
    induction c.children with
    | nil => rfl
    | cons x xs ih =>
      rw [List.flatMap_cons, List.flatten_cons, List.flatten_append, List.filter_append, List.map_append, ih]
      congr 1
      induction x with
      | nil => rfl
      | cons y ys ihy => rw [List.flatMap_cons, List.flatten_cons, List.filter_append, List.map_append, ihy]
  rw [inferClock, if_pos ⟨hp, hn⟩]
  constructor
  · intro h
    split at h
    · rename_i v hv
      refine ⟨v, (Res.ok.inj h).symm, ?_⟩
      by_cases h0 : c.ports = []
      · right
        refine ⟨h0, ?_⟩
        rw [hcv h0] at hv
        cases hf : c.children.flatten.flatten.filter fun s => s.own && s.cast with
        | nil => rw [hf] at hv; cases hv
        | cons s ss =>
          rw [hf, List.map_cons, List.cons.injEq, List.map_eq_nil_iff] at hv
          exact ⟨s, hv.1, by rw [hv.2]⟩
      · left
        rw [clkVars, if_neg h0] at hv
        exact ⟨[], [], hv, rfl, rfl⟩
    · cases h
  · rintro ⟨v, rfl, ⟨a, b, h1, rfl, rfl⟩ | ⟨h0, s, rfl, hs⟩⟩
    · have : clkVars c = [v] := by rw [clkVars, h1]; rfl
      rw [this]
    · rw [hcv h0, hs]; rfl

/-- A property with a clock, or with one condition only, stays as it is. -/
theorem infer_keeps (c : Clocks) (p : Property) (h : p.edge ≠ none ∨ p.seq.length ≤ 1) : inferClock c p = .ok p := by
  rw [inferClock, if_neg]
  rintro ⟨h1, h2⟩
  rcases h with h | h
  · exact h h1
  · omega

/-- A property of one condition gets no clock, also if it has a wait, and is written without one. -/
theorem unclocked_wrong (c : Clocks) (p : Property) (cur : List Str) (n : Node) (h : p.edge = none) (hs : p.seq = [n]) :
    ∃ q, inferClock c p = .ok q ∧ (text cur q).clock = none := by
  refine ⟨p, infer_keeps c p (.inr (by rw [hs]; exact Nat.le_refl _)), ?_⟩
  rw [text, h]; rfl

/-- Two children with the same clock: the only clock of the design is found twice, and the call
throws. -/
theorem same_clock_refused (v : Cond) (p : Property) (h : p.edge = none) (hn : 1 < p.seq.length) :
    inferClock ⟨[], [[[⟨v, true, true⟩]], [[⟨v, true, true⟩]]]⟩ p = .throw .stmt := by
  rw [inferClock, if_pos ⟨h, hn⟩]; rfl

theorem not_ClockClaim : ¬ ClockClaim := by
  intro h
  have := h ⟨[], [[[⟨⟨exG, ['c']⟩, true, true⟩]], [[⟨⟨exG, ['c']⟩, true, true⟩]]]⟩
    ⟨['p'], none, [exNode 'a' 0 0, exNode 'b' 0 0], .assert⟩ ⟨exG, ['c']⟩ (by intro x; simp [clkVars]) rfl
  rw [same_clock_refused _ _ rfl (by decide)] at this
  cases this

/-- What is written: the name, the clock as given, and the directive exactly if an action was set. -/
theorem text_shape (cur : List Str) (p : Property) :
    (text cur p).name = p.name ∧ ((text cur p).clock = none ↔ p.edge = none) ∧
    (∀ up v, p.edge = some (up, ⟨cur, v⟩) → (text cur p).clock = some (up, .name [] v)) ∧
    ((text cur p).directive = none ↔ p.action = .none) ∧
    (∀ a, a ≠ .none → p.action = a → (text cur p).directive = some a) := by
  refine ⟨rfl, by simp [text], fun up v h => by simp [text, h, varStr], ?_, fun a ha h => ?_⟩
  · simp only [text]
    split
    · rename_i h; simp [h]
    · rename_i h; simp [h]
  · simp only [text]
    rw [if_neg (by rw [h]; exact ha), h]

/-- The names of the properties of a generator stay different, and every one is written once by one run
of the pass. -/
theorem declared_once (ps : List Property) (p : Property) (qs stmts : List Property)
    (h : (ps.map (·.name)).Nodup) (ha : addProperty ps p = .ok qs) :
    (qs.map (·.name)).Nodup ∧ (∀ x, x ∈ qs ↔ x ∈ ps ∨ x = p) ∧ toStmts qs stmts = stmts ++ qs := by
  rw [addProperty] at ha
  split at ha
  · cases ha
  · rename_i hn
    cases ha
    refine ⟨?_, by simp, rfl⟩
    rw [List.map_append, List.nodup_append]
    refine ⟨h, by simp, ?_⟩
    intro a ha b hb hab
    simp only [List.map_cons, List.map_nil, List.mem_singleton] at hb
    exact hn (by rw [← hb, ← hab]; exact ha)

/-- Generating the text a second time declares every property twice. -/
theorem twice_wrong (ps : List Property) (p : Property) (hp : p ∈ ps) :
    ¬ ((toStmts ps (toStmts ps [])).map (·.name)).Nodup := by
  intro h
  simp only [toStmts, List.nil_append, List.map_append] at h
  rw [List.nodup_append] at h
  exact h.2.2 _ (List.mem_map_of_mem hp) _ (List.mem_map_of_mem hp) rfl

/-! ### Building -/

/-- One link of `….imply(c).wait(l, h)`. -/
structure Link where
  cond : Cond
  waits : List (Nat × Nat)

/-- The calls of a chain, each on the object the last one returned; `k`: the object. -/
def chained : Nat → List (Nat × Nat) → List Link → List Op
  | _, [], [] => []
  | k, w :: ws, ls => .wait k w.1 w.2 :: chained k ws ls
  | k, [], l :: ls => .imply k l.cond :: chained (k + 1) l.waits ls
  termination_by _ ws ls => ws.length + (ls.map fun l => l.waits.length + 1).sum

/-- The delay set last. -/
def lastWait (ws : List (Nat × Nat)) : Nat × Nat := ws.getLast?.getD (0, 0)

theorem upTo_last (ps : List (Nat × Node)) (k : Nat) (n : Node) (h : ∀ p ∈ ps, p.1 < k) :
    upTo k (ps ++ [(k, n)]) = some (ps ++ [(k, n)]) := by
  induction ps with
  | nil => simp [upTo]
  | cons p ps ih =>
    rw [List.cons_append, upTo, if_neg (by have := h p List.mem_cons_self; omega),
      ih fun x hx => h x (List.mem_cons_of_mem _ hx)]
    rfl

theorem chain_run : ∀ (k : Nat) (ws : List (Nat × Nat)) (ls : List Link) (ps : List (Nat × Node)) (c : Cond) (lo hi : Nat),
    (∀ p ∈ ps, p.1 < k) →
    ∃ s, run ⟨ps ++ [(k, ⟨c, lo, hi⟩)], k + 1⟩ (chained k ws ls) = .ok s ∧
      s.chain.map (·.2) = ps.map (·.2) ++ ⟨c, (ws.getLast?.getD (lo, hi)).1, (ws.getLast?.getD (lo, hi)).2⟩ ::
        ls.map fun l => ⟨l.cond, (lastWait l.waits).1, (lastWait l.waits).2⟩
  | k, [], [], ps, c, lo, hi, _ => ⟨_, by rw [chained]; rfl, by simp⟩
  | k, w :: ws, ls, ps, c, lo, hi, hp => by
    obtain ⟨s, h1, h2⟩ := chain_run k ws ls ps c w.1 w.2 hp
    refine ⟨s, ?_, ?_⟩
    · rw [chained, run, step]
      rw [if_pos (by simp), Res.ok_bind, ← h1]
      congr 2
      rw [List.map_append]
      congr 1
      · refine (List.map_congr_left fun p hpm => ?_).trans (List.map_id _)
        rw [if_neg (by have := hp p hpm; omega)]; rfl
      · simp
    · rw [h2]
      cases ws with
      | nil => simp
      | cons x xs => simp [List.getLast?_eq_some_getLast]
  | k, [], l :: ls, ps, c, lo, hi, hp => by
    obtain ⟨s, h1, h2⟩ := chain_run (k + 1) l.waits ls (ps ++ [(k, ⟨c, lo, hi⟩)]) l.cond 0 0 (by
      intro p hpm
      rcases List.mem_append.1 hpm with h | h
      · have := hp p h; omega
      · rw [List.mem_singleton.1 h]; exact Nat.lt_succ_self k)
    refine ⟨s, ?_, ?_⟩
    · rw [chained, run, step, upTo_last ps k _ hp]
      exact h1
    · rw [h2]; simp [lastWait]
  termination_by _ ws ls => ws.length + (ls.map fun l => l.waits.length + 1).sum

/-- Calls that are chained give the conditions in the order of the calls with the delay that was set
last for each. -/
theorem build_partial (c : Cond) (ws : List (Nat × Nat)) (ls : List Link) :
    ∃ s, run (start c) (chained 0 ws ls) = .ok s ∧
      s.chain.map (·.2) = ⟨c, (lastWait ws).1, (lastWait ws).2⟩ ::
        ls.map fun l => ⟨l.cond, (lastWait l.waits).1, (lastWait l.waits).2⟩ := by
  obtain ⟨s, h1, h2⟩ := chain_run 0 ws ls [] c 0 0 (by intro p hp; cases hp)
  exact ⟨s, h1, by rw [h2]; rfl⟩

/-- A second `imply` on the same object drops what the first one returned; using that is undefined. -/
theorem second_imply_ub (a b c : Cond) (lo hi : Nat) :
    run (start a) [.imply 0 b, .imply 0 c, .wait 1 lo hi] = .ub := by
  simp [run, step, start, upTo, Res.bind]

/-- ... and what followed is lost. -/
theorem second_imply_lost (a b c : Cond) :
    ∃ s, run (start a) [.imply 0 b, .imply 0 c] = .ok s ∧ s.chain.map (·.2) = [⟨a, 0, 0⟩, ⟨c, 0, 0⟩] :=
  ⟨_, rfl, rfl⟩

theorem not_CallsClaim : ¬ CallsClaim := by
  intro h
  refine h ⟨exG, ['a']⟩ [.imply 0 ⟨exG, ['b']⟩, .imply 0 ⟨exG, ['c']⟩, .wait 1 0 0] ?_ (second_imply_ub _ _ _ 0 0)
  intro o ho
  simp only [List.mem_cons, List.not_mem_nil, or_false] at ho
  rcases ho with rfl | rfl | rfl <;> simp

/-! ## Examples -/

/-- tests/gold/test_generator_property.sv: `a |-> ##1 b |-> c`. -/
example : seqToks (varStr [['t']]) [⟨⟨[['t']], ['a']⟩, 0, 0⟩, ⟨⟨[['t']], ['b']⟩, 1, 1⟩, ⟨⟨[['t']], ['c']⟩, 0, 0⟩] =
    [.name [] ['a'], .arrow, .hashes, .num 1, .name [] ['b'], .arrow, .name [] ['c']] := by decide +kernel

example : parse 2 (seqToks (varStr exG) [exNode 'a' 0 0, exNode 'b' 1 3]) =
    some (.imp 0 0 ([['x']], ['a']) (.seq 1 3 ([['x']], ['b']))) := by decide +kernel

/-- The hypotheses of `below_partial` and `shared_wrong` are met by the two instances of one module. -/
example : Hnd.Resolves exD exG (exG.drop 1) exG ∧ Hnd.Resolves exD [['t'], ['y']] (exG.drop 1) exG :=
  ⟨exResolves _ (.inl rfl), exResolves _ (.inr rfl)⟩

example : ∃ s, run (start ⟨exG, ['a']⟩) (chained 0 [] [⟨⟨exG, ['b']⟩, [(1, 1)]⟩, ⟨⟨exG, ['c']⟩, []⟩]) = .ok s ∧
    s.chain.map (·.2) = [exNode 'a' 0 0, exNode 'b' 1 1, exNode 'c' 0 0] :=
  build_partial ⟨exG, ['a']⟩ [] [⟨⟨exG, ['b']⟩, [(1, 1)]⟩, ⟨⟨exG, ['c']⟩, []⟩]

end Kratos.Sva
