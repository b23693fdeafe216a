import Verif.Base

/-!
# Adding a block of code (property C132)

`gen.add_always(fn, comment, label, sensitivity, ...)` (`kratos/generator.py:621-693`): the decorator of `fn` is read
from its text (`extract_sensitivity_from_dec`, `kratos/pyast.py:1322-1372`; the wrapper made by the decorators,
`kratos/pyast.py:1144-1156` and `kratos/generator.py:1080-1108`), the body is translated
(`transform_stmt_block`, `kratos/pyast.py:1168-1237`), and a block is made (`kratos/generator.py:25-55, 83-121`,
`SequentialStmtBlock::add_condition`, `src/stmt.cc:498-510`, `mark_stmt`, `kratos/generator.py:1063-1073`).

How the body is translated (C79) is arbitrary: `body` is the statements, or the exception.  So is which
statements a block refuses (`add`).  Left out: debug information, copies (C90), functions given as syntax trees, and
attributes of `EventEdgeType` that are not edges.
-/

namespace Kratos.Always

abbrev Name := List Char

inductive Edge where | pos | neg
  deriving DecidableEq, Repr

/-- Python values, as far as they matter. -/
inductive Val where
  | var (i : Nat)
  | edge (e : Edge)
  | str (n : Name)
  | other
  deriving DecidableEq, Repr

/-- The text of an edge: `posedge`, `EventEdgeType.Posedge`, or another expression. -/
inductive EdgeNode where
  | name (n : Name)
  | attr (n : Name)
  | other (k : Nat)
  deriving DecidableEq, Repr

/-- The text of a signal: a name, `a.b`, a string, or another expression. -/
inductive SigNode where
  | name (n : Name)
  | attr (k : Nat)
  | str (n : Name)
  | other (k : Nat)
  deriving DecidableEq, Repr

/-- An argument of a decorator: a pair, a tuple of another length, or something that is no tuple. -/
inductive Entry where
  | pair (e : EdgeNode) (s : SigNode)
  | tuple
  | other
  deriving DecidableEq, Repr

/-- A decorator: `f(...)` (`none`: `f` is not a plain name), `f`, or something else. -/
inductive Dec where
  | call (f : Option Name) (es : List Entry)
  | name (f : Name)
  | other
  deriving DecidableEq, Repr

/-- Where `add_always` is called: the local variables, the value of an expression `a.b`, and the variables of the
generator by name. -/
structure Env where
  loc : Name → Option Val
  attr : Nat → Res Val
  var : Name → Option Nat

inductive Kind where
  | comb (general : Bool)
  | seq
  | init
  | final
  | latch
  deriving DecidableEq, Repr

structure Block (S : Type) where
  kind : Kind
  conds : List (Edge × Nat)
  stmts : List S
  comment : Name
  attrs : List Name
  deriving DecidableEq, Repr

/-- The blocks of a generator, and its labels. -/
structure St (S : Type) where
  blocks : List (Block S)
  labels : List (Name × Nat)
  deriving DecidableEq, Repr

/-- A call.  `params`: the arguments of the function besides `self`, or `none` for a function without decorator object.
`kargs`: the other keywords, and whether their values count as true.  `sens = []`: no keyword `sensitivity`. -/
structure Req (S : Type) where
  params : Option (List Name)
  decs : List Dec
  kargs : List (Name × Bool)
  body : Res (List S)
  sens : List (Name × Val)
  comment : Name
  label : Option Name
  ssa : Bool

/-! ### Model -/

/-- `str.capitalize`, for ASCII. -/
def capitalize : Name → Name
  | [] => []
  | c :: cs => c.toUpper :: cs.map Char.toLower

/-- `getattr(EventEdgeType, edge)` (`kratos/generator.py:663`, `python/kratos_enum.cc:57-59`). -/
def edgeOf (n : Name) : Option Edge :=
  if n = ['P', 'o', 's', 'e', 'd', 'g', 'e'] then some .pos
  else if n = ['N', 'e', 'g', 'e', 'd', 'g', 'e'] then some .neg
  else none

/-- The signal of one pair (`kratos/pyast.py:1358-1370`). -/
def signal (E : Env) : SigNode → Res Val
  | .name n =>
    match E.loc n with
    | some (.var i) => .ok (.var i)
    | _ => .throw .user
  | .attr k =>
    (E.attr k).bind fun
    | .var i => .ok (.var i)
    | _ => .throw .user
  | .str s => .ok (.str s)
  | .other _ => .throw .user

/-- One pair (`kratos/pyast.py:1350-1371`). -/
def entry (E : Env) : Entry → Res (Name × Val)
  | .pair e s =>
    match e with
    | .name n => (signal E s).bind fun v => .ok (capitalize n, v)
    | .attr n => (signal E s).bind fun v => .ok (capitalize n, v)
    | .other _ => .throw .user
  | .tuple => .throw .user
  | .other => .throw .user

def entries (E : Env) : List Entry → Res (List (Name × Val))
  | [] => .ok []
  | x :: xs => (entry E x).bind fun a => (entries E xs).bind fun l => .ok (a :: l)

/-- What is read from the decorators: the list `[]`, `[False]`, `[True]`, or pairs. -/
inductive Raw where
  | comb (flag : Option Bool)
  | init
  | final
  | latch
  | seq (l : List (Name × Val))

/-- `extract_sensitivity_from_dec` (`kratos/pyast.py:1322-1372`). -/
def extract (E : Env) : List Dec → Res Raw
  | [] => .ok (.comb none)
  | [d] =>
    let dispatch (f : Name) (es : Res (List Entry)) : Res Raw :=
      if f = "always_comb".toList then .ok (.comb (some false))
      else if f = "always".toList then .ok (.comb (some true))
      else if f = "initial".toList then .ok .init
      else if f = "always_latch".toList then .ok .latch
      else if f = "final".toList then .ok .final
      else if f = "always_ff".toList then
        es.bind fun es => (entries E es).bind fun l => .ok (.seq l)
      else .throw .user
    match d with
    | .call (some f) es => dispatch f (.ok es)
    | .call none _ => .throw .user
    | .name f => dispatch f (.throw .user)
    | .other => .throw .user
  | _ => .throw .user

/-- The keywords that the function takes (`kratos/pyast.py:1174-1178, 1231-1232`): what is left. -/
def takeArgs (params : Option (List Name)) (kargs : List (Name × Bool)) : Res (List (Name × Bool)) :=
  match params with
  | none => .ok kargs
  | some ps =>
    if kargs.length < ps.length then .throw .user
    else if ps.all (fun p => kargs.any fun k => k.1 == p) then .ok (kargs.filter fun k => !ps.contains k.1)
    else .throw .user

/-- The pairs of a sensitivity list (`kratos/generator.py:661-669`); a name that the generator does not know gives
`None`. -/
def resolve (E : Env) : List (Name × Val) → Res (List (Edge × Option Nat))
  | [] => .ok []
  | (n, v) :: l =>
    match edgeOf n with
    | none => .throw .user
    | some e =>
      match v with
      | .str s => (resolve E l).bind fun r => .ok ((e, E.var s) :: r)
      | .var i => (resolve E l).bind fun r => .ok ((e, some i) :: r)
      | _ => .throw .user

/-- `SequentialCodeBlock.__init__` (`kratos/generator.py:88-91`) and `add_condition` (`src/stmt.cc:498-510`): the
conditions added, and the exception. -/
def addConds : List (Edge × Nat) → List (Edge × Option Nat) → List (Edge × Nat) × Option Err
  | acc, [] => (acc, none)
  | acc, (_, none) :: _ => (acc, some .user)
  | acc, (e, some v) :: l => if (e, v) ∈ acc then addConds acc l else addConds (acc ++ [(e, v)]) l

variable {S : Type}

/-- `add_stmt` for every statement. -/
def addStmts (add : Kind → S → Option Err) (k : Kind) : List S → List S → List S × Option Err
  | acc, [] => (acc, none)
  | acc, s :: l =>
    match add k s with
    | some e => (acc, some e)
    | none => addStmts add k (acc ++ [s]) l

/-- The attributes (`kratos/generator.py:682-691`). -/
def attrsOf (left : List (Name × Bool)) (ssa : Bool) : List Name :=
  (left.filter (·.2)).map (·.1) ++ if ssa then ["ssa".toList] else []

def push (st : St S) (b : Block S) : St S := ⟨st.blocks ++ [b], st.labels⟩

/-- A block is made and filled (`kratos/generator.py:635-692`).  It is part of the generator from the start. -/
def create (add : Kind → S → Option Err) (st : St S) (r : Req S) (left : List (Name × Bool)) (k : Kind)
    (cs : List (Edge × Option Nat)) (ss : List S) : St S × Res Nat :=
  match addConds [] cs with
  | (conds, some e) => (push st ⟨k, conds, [], [], []⟩, .throw e)
  | (conds, none) =>
    match addStmts add k [] ss with
    | (done, some e) => (push st ⟨k, conds, done, [], []⟩, .throw e)
    | (done, none) =>
      match r.label with
      | none => (push st ⟨k, conds, done, r.comment, attrsOf left r.ssa⟩, .ok st.blocks.length)
      | some l =>
        if st.labels.any (fun x => x.1 == l) then (push st ⟨k, conds, done, r.comment, []⟩, .throw .user)
        else (⟨st.blocks ++ [⟨k, conds, done, r.comment, attrsOf left r.ssa⟩], st.labels ++ [(l, st.blocks.length)]⟩,
          .ok st.blocks.length)

/-- `add_always` (`kratos/generator.py:621-692`). -/
def addAlways (E : Env) (add : Kind → S → Option Err) (st : St S) (r : Req S) : St S × Res Nat :=
  let pre : Res (List (Name × Bool) × Raw × List S) :=
    (takeArgs r.params r.kargs).bind fun left =>
    (extract E r.decs).bind fun raw =>
    r.body.bind fun ss => .ok (left, raw, ss)
  match pre with
  | .throw e => (st, .throw e)
  | .ub => (st, .ub)
  | .ok (left, raw, ss) =>
    match (if r.sens = [] then raw else .seq r.sens) with
    | .comb none => (st, .throw .outOfRange)
    | .comb (some g) => create add st r left (.comb g) [] ss
    | .init => create add st r left .init [] ss
    | .final => create add st r left .final [] ss
    | .latch => create add st r left .latch [] ss
    | .seq l =>
      match resolve E l with
      | .throw e => (st, .throw e)
      | .ub => (st, .ub)
      | .ok cs => create add st r left .seq cs ss

/-! ### Specification -/

/-- An edge is spelled in letters of either case. -/
inductive Spelled : Name → Edge → Prop
  | pos {c cs} : (c = 'p' ∨ c = 'P') → cs.map Char.toLower = ['o', 's', 'e', 'd', 'g', 'e'] → Spelled (c :: cs) .pos
  | neg {c cs} : (c = 'n' ∨ c = 'N') → cs.map Char.toLower = ['e', 'g', 'e', 'd', 'g', 'e'] → Spelled (c :: cs) .neg

/-- What the text of an edge names. -/
inductive EdgeText : EdgeNode → Edge → Prop
  | name {n e} : Spelled n e → EdgeText (.name n) e
  | attr {n e} : Spelled n e → EdgeText (.attr n) e

/-- What the text of a signal stands for where the block is added. -/
inductive SigText (E : Env) : SigNode → Nat → Prop
  | name {n i} : E.loc n = some (.var i) → SigText E (.name n) i
  | attr {k i} : E.attr k = .ok (.var i) → SigText E (.attr k) i
  | str {s i} : E.var s = some i → SigText E (.str s) i

/-- Two lists correspond. -/
inductive All2 {α β : Type} (R : α → β → Prop) : List α → List β → Prop
  | nil : All2 R [] []
  | cons {a b l m} : R a b → All2 R l m → All2 R (a :: l) (b :: m)

/-- One entry of the decorator, and what it asks for. -/
def AsksD (E : Env) (x : Entry) (q : Edge × Nat) : Prop :=
  ∃ e s, x = .pair e s ∧ EdgeText e q.1 ∧ SigText E s q.2

/-- One entry of the keyword `sensitivity`: a string `"Posedge"` or `"Negedge"`, and a variable or its name. -/
def AsksS (E : Env) (x : Name × Val) (q : Edge × Nat) : Prop :=
  ((q.1 = .pos ∧ x.1 = "Posedge".toList) ∨ (q.1 = .neg ∧ x.1 = "Negedge".toList)) ∧
  (x.2 = .var q.2 ∨ ∃ s, x.2 = .str s ∧ E.var s = some q.2)

/-- The decorators without arguments. -/
def plain : List (Name × Kind) :=
  [("always_comb".toList, .comb false), ("always".toList, .comb true), ("initial".toList, .init),
   ("always_latch".toList, .latch), ("final".toList, .final)]

/-- A pair that can be read. -/
def ReadableEntry (E : Env) (x : Entry) : Prop :=
  ∃ e s, x = .pair e s ∧ (∀ k, e ≠ .other k) ∧ ((∃ n, s = .str n) ∨ ∃ i, SigText E s i)

/-- Decorators that can be read. -/
def Readable (E : Env) (ds : List Dec) : Prop :=
  ds = [] ∨ (∃ f k, (f, k) ∈ plain ∧ (ds = [.name f] ∨ ∃ es, ds = [.call (some f) es])) ∨
  ∃ es, ds = [.call (some "always_ff".toList) es] ∧ ∀ x ∈ es, ReadableEntry E x

/-- The kind of block that a call asks for, and the events that it waits for. -/
inductive Asks (E : Env) (r : Req S) : Kind → List (Edge × Nat) → Prop
  | plain {f k} : r.sens = [] → (r.decs = [.name f] ∨ ∃ es, r.decs = [.call (some f) es]) → (f, k) ∈ plain →
      Asks E r k []
  | ff {es q} : r.sens = [] → r.decs = [.call (some "always_ff".toList) es] → All2 (AsksD E) es q → Asks E r .seq q
  | sens {q} : r.sens ≠ [] → Readable E r.decs → All2 (AsksS E) r.sens q → Asks E r .seq q

/-- The events without repetitions. -/
def Events (q conds : List (Edge × Nat)) : Prop := conds.Nodup ∧ conds.Sublist q ∧ ∀ x, x ∈ q → x ∈ conds

/-- The keywords are there that the function needs. -/
def HasArgs (r : Req S) : Prop :=
  ∀ ps, r.params = some ps → ps.length ≤ r.kargs.length ∧ ∀ p ∈ ps, ∃ b, (p, b) ∈ r.kargs

/-- A block as the call asks for it. -/
def Made (r : Req S) (k : Kind) (q : List (Edge × Nat)) (ss : List S) (b : Block S) : Prop :=
  b.kind = k ∧ Events q b.conds ∧ b.stmts = ss ∧ b.comment = r.comment ∧
  ∀ a, a ∈ b.attrs ↔ (((a, true) ∈ r.kargs ∧ ∀ ps, r.params = some ps → a ∉ ps) ∨ (r.ssa = true ∧ a = "ssa".toList))

/-- What a user expects: a refused call does nothing. -/
def AtomicClaim : Prop :=
  ∀ (E : Env) (add : Kind → Nat → Option Err) (st : St Nat) (r : Req Nat),
    (∀ n, (addAlways E add st r).2 ≠ .ok n) → (addAlways E add st r).1 = st

/-- What a user expects: the decorator may be written with the module, `@kratos.always_ff(...)`. -/
def QualifiedClaim : Prop :=
  ∀ (E : Env) (add : Kind → Nat → Option Err) (st : St Nat) (r : Req Nat) es n,
    r.decs = [.call (some "always_ff".toList) es] → (addAlways E add st r).2 = .ok n →
    ∃ m, (addAlways E add st { r with decs := [.call none es] }).2 = .ok m

/-- What the decorator was given when the function was defined: `D` gives the values of names and expressions there. -/
inductive Given (D : Env) : Entry → Edge × Val → Prop
  | mk {e s ed v} : (∃ n, e = .name n ∧ D.loc n = some (.edge ed) ∨ e = .attr n ∧ Spelled n ed) →
      ((∃ n, s = .name n ∧ D.loc n = some v) ∨ (∃ k, s = .attr k ∧ D.attr k = .ok v) ∨ (∃ n, s = .str n ∧ v = .str n)) →
      Given D (.pair e s) (ed, v)

/-- A value as an event. -/
def Event (E : Env) (g : Edge × Val) (q : Edge × Nat) : Prop :=
  g.1 = q.1 ∧ (g.2 = .var q.2 ∨ ∃ s, g.2 = .str s ∧ E.var s = some q.2)

/-- What a user expects: the block waits for what the decorator was given. -/
def DecoratorClaim : Prop :=
  ∀ (D E : Env) (add : Kind → Nat → Option Err) (st st' : St Nat) (r : Req Nat) es gs n,
    r.sens = [] → r.decs = [.call (some "always_ff".toList) es] → All2 (Given D) es gs →
    addAlways E add st r = (st', .ok n) →
    ∃ b q, st'.blocks = st.blocks ++ [b] ∧ All2 (Event E) gs q ∧ Events q b.conds

/-! ### Lemmas -/

theorem upper_iff (c : Char) : (c.toUpper = 'P' ↔ c = 'p' ∨ c = 'P') ∧ (c.toUpper = 'N' ↔ c = 'n' ∨ c = 'N') := by
  unfold Char.toUpper
  split
  · next h =>
    obtain ⟨ha, hb⟩ := h
    rw [UInt32.le_iff_toNat_le] at ha
    rw [UInt32.le_iff_toNat_le] at hb
    simp only [Char.ext_iff, ← UInt32.toNat_inj, UInt32.toNat_add]
    have e1 : 'a'.val.toNat = 97 := rfl
    have e2 : 'z'.val.toNat = 122 := rfl
    have e3 : 'p'.val.toNat = 112 := rfl
    have e4 : 'P'.val.toNat = 80 := rfl
    have e5 : 'n'.val.toNat = 110 := rfl
    have e6 : 'N'.val.toNat = 78 := rfl
    have e7 : ('A'.val - 'a'.val).toNat = 4294967264 := rfl
    simp only [e1,e2,e3,e4,e5,e6,e7] at *
    constructor <;> constructor <;> intro h' <;> omega
  · next h =>
    constructor
    · refine ⟨Or.inr, fun h' => ?_⟩
      rcases h' with rfl | rfl
      · exact absurd (by decide) h
      · rfl
    · refine ⟨Or.inr, fun h' => ?_⟩
      rcases h' with rfl | rfl
      · exact absurd (by decide) h
      · rfl

theorem edgeOf_iff {n : Name} {e : Edge} :
    edgeOf n = some e ↔ (e = .pos ∧ n = "Posedge".toList) ∨ (e = .neg ∧ n = "Negedge".toList) := by
  have h1 : "Posedge".toList = ['P', 'o', 's', 'e', 'd', 'g', 'e'] := by decide
  have h2 : "Negedge".toList = ['N', 'e', 'g', 'e', 'd', 'g', 'e'] := by decide
  rw [h1, h2]
  unfold edgeOf
  split
  · next h => subst h; cases e <;> simp
  · next h =>
    split
    · next h' => subst h'; cases e <;> simp
    · next h' => simp [h, h']

theorem edge_spelled {n : Name} {e : Edge} : edgeOf (capitalize n) = some e ↔ Spelled n e := by
  cases n with
  | nil =>
    constructor
    · intro h
      have : edgeOf (capitalize []) = none := by decide
      rw [this] at h; cases h
    · intro h; cases h
  | cons c cs =>
    unfold edgeOf capitalize
    simp only [List.cons.injEq]
    constructor
    · intro h
      split at h
      · next h' => cases h; exact .pos ((upper_iff c).1.1 h'.1) h'.2
      · split at h
        · next h' => cases h; exact .neg ((upper_iff c).2.1 h'.1) h'.2
        · cases h
    · intro h
      cases h with
      | pos h1 h2 => rw [if_pos ⟨(upper_iff c).1.2 h1, h2⟩]
      | neg h1 h2 =>
        have := (upper_iff c).2.2 h1
        rw [if_neg (fun h => by rw [this] at h; exact absurd h.1 (by decide)), if_pos ⟨this, h2⟩]

/-- The events as the list that `resolve` gives. -/
def lift (q : List (Edge × Nat)) : List (Edge × Option Nat) := q.map fun p => (p.1, some p.2)

theorem signal_iff {E : Env} {s : SigNode} {v : Val} : signal E s = .ok v ↔
    (∃ n, s = .str n ∧ v = .str n) ∨ ∃ i, v = .var i ∧ SigText E s i ∧ ∀ n, s ≠ .str n := by
  cases s with
  | name n =>
    simp only [signal]
    constructor
    · intro h
      split at h
      · next i hi => cases h; exact Or.inr ⟨i, rfl, .name hi, by simp⟩
      · cases h
    · rintro (⟨m, h, _⟩ | ⟨i, rfl, h, _⟩)
      · cases h
      · cases h with | name h => rw [h]
  | attr k =>
    simp only [signal, Res.bind_eq_ok]
    constructor
    · rintro ⟨a, ha, h⟩
      cases a <;> simp at h
      subst h
      exact Or.inr ⟨_, rfl, .attr ha, by simp⟩
    · rintro (⟨m, h, _⟩ | ⟨i, rfl, h, _⟩)
      · cases h
      · cases h with | attr h => exact ⟨_, h, rfl⟩
  | str n =>
    simp only [signal, Res.ok.injEq]
    constructor
    · rintro rfl; exact Or.inl ⟨n, rfl, rfl⟩
    · rintro (⟨m, h, rfl⟩ | ⟨i, rfl, h, h'⟩)
      · cases h; rfl
      · exact absurd rfl (h' n)
  | other k =>
    simp only [signal]
    constructor
    · intro h; cases h
    · rintro (⟨m, h, _⟩ | ⟨i, rfl, h, _⟩)
      · cases h
      · cases h

/-- What one value of a sensitivity list is resolved to. -/
def ValOf (E : Env) (v : Val) (w : Option Nat) : Prop :=
  (∃ i, v = .var i ∧ w = some i) ∨ ∃ s, v = .str s ∧ w = E.var s

theorem resolve_iff {E : Env} : ∀ {l : List (Name × Val)} {cs : List (Edge × Option Nat)},
    resolve E l = .ok cs ↔ All2 (fun x c => edgeOf x.1 = some c.1 ∧ ValOf E x.2 c.2) l cs
  | [], cs => by
    simp only [resolve, Res.ok.injEq]
    constructor
    · rintro rfl; exact .nil
    · intro h; cases h; rfl
  | (n, v) :: l, cs => by
    simp only [resolve]
    constructor
    · intro h
      split at h
      · cases h
      · next e he =>
        split at h
        · next s =>
          rw [Res.bind_eq_ok] at h
          obtain ⟨r, hr, h⟩ := h
          cases h
          exact .cons ⟨he, Or.inr ⟨s, rfl, rfl⟩⟩ (resolve_iff.1 hr)
        · next i =>
          rw [Res.bind_eq_ok] at h
          obtain ⟨r, hr, h⟩ := h
          cases h
          exact .cons ⟨he, Or.inl ⟨i, rfl, rfl⟩⟩ (resolve_iff.1 hr)
        · cases h
    · intro h
      cases h with
      | @cons _ c _ m h1 h2 =>
        obtain ⟨e, w⟩ := c
        obtain ⟨he, hv⟩ := h1
        simp only at he hv
        rw [he]
        simp only
        rcases hv with ⟨i, rfl, rfl⟩ | ⟨s, rfl, rfl⟩
        · simp [resolve_iff.2 h2, Res.ok_bind]
        · simp [resolve_iff.2 h2, Res.ok_bind]

theorem entry_iff {E : Env} {x : Entry} {a : Name × Val} : entry E x = .ok a ↔
    ∃ n s, (x = .pair (.name n) s ∨ x = .pair (.attr n) s) ∧ signal E s = .ok a.2 ∧ a.1 = capitalize n := by
  constructor
  · intro h
    unfold entry at h
    split at h
    · next e s =>
      split at h
      · next n =>
        rw [Res.bind_eq_ok] at h
        obtain ⟨v, hv, h⟩ := h
        cases h
        exact ⟨n, s, Or.inl rfl, hv, rfl⟩
      · next n =>
        rw [Res.bind_eq_ok] at h
        obtain ⟨v, hv, h⟩ := h
        cases h
        exact ⟨n, s, Or.inr rfl, hv, rfl⟩
      · cases h
    · cases h
    · cases h
  · rintro ⟨n, s, h, hs, ha⟩
    obtain ⟨a1, a2⟩ := a
    simp only at hs ha
    rcases h with rfl | rfl <;> simp [entry, hs, ha, Res.ok_bind]

theorem entries_iff {E : Env} : ∀ {es : List Entry} {l : List (Name × Val)},
    entries E es = .ok l ↔ All2 (fun x a => entry E x = .ok a) es l
  | [], l => by
    simp only [entries, Res.ok.injEq]
    constructor
    · rintro rfl; exact .nil
    · intro h; cases h; rfl
  | x :: xs, l => by
    simp only [entries, Res.bind_eq_ok, Res.ok.injEq]
    constructor
    · rintro ⟨a, ha, m, hm, rfl⟩
      exact .cons ha (entries_iff.1 hm)
    · intro h
      cases h with
      | cons h1 h2 => exact ⟨_, h1, _, entries_iff.2 h2, rfl⟩

theorem all2_comp {α β γ : Type} {R : α → β → Prop} {T : β → γ → Prop} {V : α → γ → Prop}
    (h : ∀ a c, (∃ b, R a b ∧ T b c) ↔ V a c) : ∀ {l : List α} {n : List γ},
    (∃ m, All2 R l m ∧ All2 T m n) ↔ All2 V l n
  | [], n => by
    constructor
    · rintro ⟨m, h1, h2⟩
      cases h1; cases h2; exact .nil
    · intro h; cases h; exact ⟨[], .nil, .nil⟩
  | a :: l, n => by
    constructor
    · rintro ⟨m, h1, h2⟩
      cases h1 with
      | cons h1 h1' =>
        cases h2 with
        | cons h2 h2' => exact .cons ((h _ _).1 ⟨_, h1, h2⟩) ((all2_comp h).1 ⟨_, h1', h2'⟩)
    · intro h3
      cases h3 with
      | cons h3 h3' =>
        obtain ⟨b, h1, h2⟩ := (h _ _).2 h3
        obtain ⟨m, h1', h2'⟩ := (all2_comp h).2 h3'
        exact ⟨b :: m, .cons h1 h1', .cons h2 h2'⟩

theorem all2_lift {α : Type} {R : α → Edge × Option Nat → Prop} : ∀ {l : List α} {q : List (Edge × Nat)},
    All2 R l (lift q) ↔ All2 (fun a p => R a (p.1, some p.2)) l q
  | l, [] => by
    constructor
    · intro h; cases h; exact .nil
    · intro h; cases h; exact .nil
  | [], p :: q => by
    constructor
    · intro h; cases h
    · intro h; cases h
  | a :: l, p :: q => by
    constructor
    · intro h
      cases h with | cons h1 h2 => exact .cons h1 (all2_lift.1 h2)
    · intro h
      cases h with | cons h1 h2 => exact .cons h1 (all2_lift.2 h2)

theorem all2_congr {α β : Type} {R T : α → β → Prop} (h : ∀ a b, R a b ↔ T a b) : ∀ {l : List α} {m : List β},
    All2 R l m ↔ All2 T l m
  | [], [] => ⟨fun _ => .nil, fun _ => .nil⟩
  | [], _ :: _ => ⟨fun h => (by cases h), fun h => (by cases h)⟩
  | _ :: _, [] => ⟨fun h => (by cases h), fun h => (by cases h)⟩
  | a :: l, b :: m => by
    constructor
    · intro h'; cases h' with | cons h1 h2 => exact .cons ((h _ _).1 h1) ((all2_congr h).1 h2)
    · intro h'; cases h' with | cons h1 h2 => exact .cons ((h _ _).2 h1) ((all2_congr h).2 h2)

/-- A sensitivity list that can be resolved, all names known. -/
theorem sens_iff {E : Env} {l : List (Name × Val)} {q : List (Edge × Nat)} :
    resolve E l = .ok (lift q) ↔ All2 (AsksS E) l q := by
  rw [resolve_iff, all2_lift]
  refine all2_congr fun x p => ?_
  unfold AsksS ValOf
  rw [edgeOf_iff]
  refine and_congr Iff.rfl ?_
  constructor
  · rintro (⟨i, h1, h2⟩ | ⟨s, h1, h2⟩)
    · cases h2; exact Or.inl h1
    · exact Or.inr ⟨s, h1, h2.symm⟩
  · rintro (h | ⟨s, h1, h2⟩)
    · exact Or.inl ⟨_, h, rfl⟩
    · exact Or.inr ⟨s, h1, h2.symm⟩

/-- The decorator `always_ff`, all names known. -/
theorem ff_iff {E : Env} {es : List Entry} {q : List (Edge × Nat)} :
    (∃ l, entries E es = .ok l ∧ resolve E l = .ok (lift q)) ↔ All2 (AsksD E) es q := by
  have key : ∀ (x : Entry) (p : Edge × Nat), (∃ a, entry E x = .ok a ∧ AsksS E a p) ↔ AsksD E x p := by
    intro x p
    constructor
    · rintro ⟨a, ha, hs⟩
      obtain ⟨n, s, hx, hsig, hn⟩ := entry_iff.1 ha
      have hsp : Spelled n p.1 := by
        rw [← edge_spelled, ← hn, edgeOf_iff]; exact hs.1
      have hst : SigText E s p.2 := by
        rcases signal_iff.1 hsig with ⟨m, rfl, h2⟩ | ⟨i, h1, h2, -⟩
        · rcases hs.2 with h | ⟨t, h, h'⟩
          · rw [h2] at h; cases h
          · rw [h2] at h; cases h; exact .str h'
        · rcases hs.2 with h | ⟨t, h, h'⟩
          · rw [h1] at h; cases h; exact h2
          · rw [h1] at h; cases h
      rcases hx with rfl | rfl
      · exact ⟨_, _, rfl, .name hsp, hst⟩
      · exact ⟨_, _, rfl, .attr hsp, hst⟩
    · rintro ⟨e, s, rfl, he, hs⟩
      have hsig : ∃ v, signal E s = .ok v ∧ (v = .var p.2 ∨ ∃ t, v = .str t ∧ E.var t = some p.2) := by
        cases hs with
        | name h => exact ⟨.var p.2, signal_iff.2 (Or.inr ⟨_, rfl, .name h, by simp⟩), Or.inl rfl⟩
        | attr h => exact ⟨.var p.2, signal_iff.2 (Or.inr ⟨_, rfl, .attr h, by simp⟩), Or.inl rfl⟩
        | @str t _ h => exact ⟨.str t, rfl, Or.inr ⟨t, rfl, h⟩⟩
      obtain ⟨v, hv, hv'⟩ := hsig
      cases he with
      | @name n _ h =>
        exact ⟨(capitalize n, v), entry_iff.2 ⟨n, s, Or.inl rfl, hv, rfl⟩, edgeOf_iff.1 (edge_spelled.2 h), hv'⟩
      | @attr n _ h =>
        exact ⟨(capitalize n, v), entry_iff.2 ⟨n, s, Or.inr rfl, hv, rfl⟩, edgeOf_iff.1 (edge_spelled.2 h), hv'⟩
  rw [← all2_comp key]
  simp only [entries_iff, sens_iff]

theorem addConds_lift : ∀ (q : List (Edge × Nat)) (acc : List (Edge × Nat)),
    ∃ conds, addConds acc (lift q) = (conds, none)
  | [], acc => ⟨acc, rfl⟩
  | p :: q, acc => by
    have e : lift (p :: q) = (p.1, some p.2) :: lift q := rfl
    rw [e]
    simp only [addConds]
    split <;> exact addConds_lift q _

theorem addConds_ok : ∀ {cs : List (Edge × Option Nat)} {acc conds : List (Edge × Nat)},
    addConds acc cs = (conds, none) → ∃ q t, cs = lift q ∧ conds = acc ++ t ∧ (acc.Nodup → conds.Nodup) ∧
      t.Sublist q ∧ ∀ x ∈ q, x ∈ conds
  | [], acc, conds, h => by
    simp only [addConds, Prod.mk.injEq, and_true] at h
    subst h
    exact ⟨[], [], rfl, by simp, id, .slnil, by simp⟩
  | (e, none) :: cs, acc, conds, h => by simp [addConds] at h
  | (e, some v) :: cs, acc, conds, h => by
    simp only [addConds] at h
    split at h
    · next hm =>
      obtain ⟨q, t, rfl, hc, hn, hs, hx⟩ := addConds_ok h
      refine ⟨(e, v) :: q, t, rfl, hc, hn, .cons _ hs, ?_⟩
      intro x hx'
      rcases List.mem_cons.1 hx' with rfl | hx'
      · rw [hc]; exact List.mem_append_left _ hm
      · exact hx x hx'
    · next hm =>
      obtain ⟨q, t, rfl, hc, hn, hs, hx⟩ := addConds_ok h
      refine ⟨(e, v) :: q, (e, v) :: t, rfl, by rw [hc]; simp, ?_, .cons_cons _ hs, ?_⟩
      · intro ha
        refine hn (List.nodup_append.2 ⟨ha, by simp, ?_⟩)
        intro a ha' b hb
        simp at hb
        subst hb
        rintro rfl
        exact hm ha'
      · intro x hx'
        rcases List.mem_cons.1 hx' with rfl | hx'
        · rw [hc]; simp
        · exact hx x hx'

theorem addStmts_spec (add : Kind → S → Option Err) (k : Kind) : ∀ (ss acc : List S),
    ((∀ s ∈ ss, add k s = none) → addStmts add k acc ss = (acc ++ ss, none)) ∧
    (∀ done, addStmts add k acc ss = (done, none) → (∀ s ∈ ss, add k s = none) ∧ done = acc ++ ss) ∧
    ∃ p r, (addStmts add k acc ss).1 = acc ++ p ∧ ss = p ++ r
  | [], acc => ⟨fun _ => by simp [addStmts], fun done h => by simp [addStmts] at h; simp [h], [], [], by simp [addStmts]⟩
  | s :: ss, acc => by
    obtain ⟨h1, h2, h3⟩ := addStmts_spec add k ss (acc ++ [s])
    simp only [addStmts]
    cases hs : add k s with
    | some e => exact ⟨fun h => absurd (h s (by simp)) (by simp [hs]), fun _ h => by simp at h, [], s :: ss, by simp⟩
    | none =>
      refine ⟨fun h => ?_, fun done h => ?_, ?_⟩
      · simp only
        rw [h1 fun x hx => h x (List.mem_cons_of_mem _ hx)]
        simp
      · obtain ⟨a, b⟩ := h2 done h
        refine ⟨fun x hx => ?_, by simp [b]⟩
        rcases List.mem_cons.1 hx with rfl | hx
        · exact hs
        · exact a x hx
      · obtain ⟨p, r, e1, e2⟩ := h3
        exact ⟨s :: p, r, by simp [e1], by simp [e2]⟩

theorem takeArgs_iff {r : Req S} {left : List (Name × Bool)} : takeArgs r.params r.kargs = .ok left ↔
    HasArgs r ∧ left = r.kargs.filter fun k => !((r.params.getD []).contains k.1) := by
  unfold takeArgs HasArgs
  cases hp : r.params with
  | none =>
    simp only [Res.ok.injEq, Option.getD_none]
    constructor
    · rintro rfl
      refine ⟨fun ps h => (by cases h), ?_⟩
      rw [List.filter_eq_self.2]; simp
    · rintro ⟨_, rfl⟩
      rw [List.filter_eq_self.2]; simp
  | some ps =>
    simp only [Option.getD_some, Option.some.injEq, forall_eq']
    by_cases h1 : r.kargs.length < ps.length
    · rw [if_pos h1]
      refine ⟨fun h => (by cases h), fun ⟨h, _⟩ => ?_⟩
      omega
    · rw [if_neg h1]
      by_cases h2 : (ps.all fun p => r.kargs.any fun k => k.1 == p) = true
      · rw [if_pos h2, Res.ok.injEq]
        have : ∀ p ∈ ps, ∃ b, (p, b) ∈ r.kargs := by
          intro p hp
          have := List.all_eq_true.1 h2 p hp
          obtain ⟨⟨a, b⟩, hm, he⟩ := List.any_eq_true.1 this
          simp at he
          subst he
          exact ⟨b, hm⟩
        exact ⟨fun h => ⟨⟨by omega, this⟩, h.symm⟩, fun h => h.2.symm⟩
      · rw [if_neg h2]
        refine ⟨fun h => (by cases h), fun ⟨⟨_, h⟩, _⟩ => absurd ?_ h2⟩
        refine List.all_eq_true.2 fun p hp => ?_
        obtain ⟨b, hb⟩ := h p hp
        exact List.any_eq_true.2 ⟨_, hb, by simp⟩

theorem attrs_mem {r : Req S} {a : Name} :
    a ∈ attrsOf (r.kargs.filter fun k => !((r.params.getD []).contains k.1)) r.ssa ↔
      (((a, true) ∈ r.kargs ∧ ∀ ps, r.params = some ps → a ∉ ps) ∨ (r.ssa = true ∧ a = "ssa".toList)) := by
  unfold attrsOf
  rw [List.mem_append]
  refine or_congr ?_ ?_
  · simp only [List.mem_map, List.mem_filter]
    constructor
    · rintro ⟨⟨x, b⟩, ⟨⟨h1, h2⟩, h3⟩, rfl⟩
      simp only at h2 h3
      subst h3
      refine ⟨h1, fun ps hp hm => ?_⟩
      simp [hp, hm] at h2
    · rintro ⟨h1, h2⟩
      refine ⟨(a, true), ⟨⟨h1, ?_⟩, rfl⟩, rfl⟩
      cases hp : r.params with
      | none => simp
      | some ps => simp [h2 ps hp]
  · cases r.ssa <;> simp

/-- What `create` does if it is accepted, and when. -/
theorem create_ok {add : Kind → S → Option Err} {st st' : St S} {r : Req S} {left : List (Name × Bool)} {k : Kind}
    {cs : List (Edge × Option Nat)} {ss : List S} {n : Nat} (h : create add st r left k cs ss = (st', .ok n)) :
    n = st.blocks.length ∧ (∀ s ∈ ss, add k s = none) ∧
    (∃ q conds, cs = lift q ∧ Events q conds ∧
      st'.blocks = st.blocks ++ [⟨k, conds, ss, r.comment, attrsOf left r.ssa⟩]) ∧
    (∀ l, r.label = some l → (∀ i, (l, i) ∉ st.labels) ∧ st'.labels = st.labels ++ [(l, n)]) ∧
    (r.label = none → st'.labels = st.labels) := by
  unfold create at h
  cases hc : addConds [] cs with
  | mk conds x =>
    rw [hc] at h
    cases x with
    | some e => simp at h
    | none =>
      simp only at h
      cases hs : addStmts add k [] ss with
      | mk done y =>
        rw [hs] at h
        cases y with
        | some e => simp at h
        | none =>
          simp only at h
          obtain ⟨q, t, hq, ht, hn, hsub, hx⟩ := addConds_ok hc
          obtain ⟨ha, hd⟩ := (addStmts_spec add k ss []).2.1 done hs
          simp only [List.nil_append] at ht hd
          subst ht; subst hd
          have hev : Events q conds := ⟨hn (by simp), hsub, hx⟩
          cases hl : r.label with
          | none =>
            rw [hl] at h
            simp only [Prod.mk.injEq, Res.ok.injEq] at h
            obtain ⟨rfl, rfl⟩ := h
            exact ⟨rfl, ha, ⟨q, conds, hq, hev, rfl⟩, fun l h => (by cases h), fun _ => rfl⟩
          | some l =>
            rw [hl] at h
            simp only at h
            split at h
            · simp at h
            · next hfree =>
              simp only [Prod.mk.injEq, Res.ok.injEq] at h
              obtain ⟨rfl, rfl⟩ := h
              refine ⟨rfl, ha, ⟨q, conds, hq, hev, rfl⟩, fun l' h => ?_, fun h => (by cases h)⟩
              cases h
              refine ⟨fun i hi => hfree (List.any_eq_true.2 ⟨_, hi, by simp⟩), rfl⟩

theorem create_accepts {add : Kind → S → Option Err} {st : St S} {r : Req S} {left : List (Name × Bool)} {k : Kind}
    {q : List (Edge × Nat)} {ss : List S} (ha : ∀ s ∈ ss, add k s = none)
    (hl : ∀ l, r.label = some l → ∀ i, (l, i) ∉ st.labels) :
    ∃ st' n, create add st r left k (lift q) ss = (st', .ok n) := by
  unfold create
  obtain ⟨conds, hc⟩ := addConds_lift q []
  rw [hc]
  simp only
  rw [(addStmts_spec add k ss []).1 ha]
  simp only
  cases hlab : r.label with
  | none => exact ⟨_, _, rfl⟩
  | some l =>
    simp only
    rw [if_neg]
    · exact ⟨_, _, rfl⟩
    · intro h
      obtain ⟨⟨x, i⟩, hm, he⟩ := List.any_eq_true.1 h
      simp at he
      subst he
      exact hl _ hlab i hm

/-- What is left behind. -/
theorem create_leaves (add : Kind → S → Option Err) (st : St S) (r : Req S) (left : List (Name × Bool)) (k : Kind)
    (cs : List (Edge × Option Nat)) (ss : List S) :
    ∃ b, (create add st r left k cs ss).1.blocks = st.blocks ++ [b] ∧ b.kind = k ∧ (∃ rest, ss = b.stmts ++ rest) ∧
      ((∀ n, (create add st r left k cs ss).2 ≠ .ok n) → (create add st r left k cs ss).1.labels = st.labels) := by
  unfold create
  cases hc : addConds [] cs with
  | mk conds x =>
    cases x with
    | some e => exact ⟨_, rfl, rfl, ⟨ss, rfl⟩, fun _ => rfl⟩
    | none =>
      simp only
      obtain ⟨p, t, hp, hss⟩ := (addStmts_spec add k ss []).2.2
      cases hs : addStmts add k [] ss with
      | mk done y =>
        rw [hs] at hp
        simp only [List.nil_append] at hp
        subst hp
        cases y with
        | some e => exact ⟨_, rfl, rfl, ⟨t, hss⟩, fun _ => rfl⟩
        | none =>
          simp only
          cases hl : r.label with
          | none => exact ⟨_, rfl, rfl, ⟨t, hss⟩, fun _ => rfl⟩
          | some l =>
            simp only
            split
            · exact ⟨_, rfl, rfl, ⟨t, hss⟩, fun _ => rfl⟩
            · exact ⟨_, rfl, rfl, ⟨t, hss⟩, fun h => absurd rfl (h _)⟩

theorem entries_readable {E : Env} : ∀ {es : List Entry},
    (∃ l, entries E es = .ok l) ↔ ∀ x ∈ es, ReadableEntry E x
  | [] => by simp [entries]
  | x :: xs => by
    have key : (∃ a, entry E x = .ok a) ↔ ReadableEntry E x := by
      constructor
      · rintro ⟨a, ha⟩
        obtain ⟨n, s, hx, hs, -⟩ := entry_iff.1 ha
        have hs' : (∃ n, s = .str n) ∨ ∃ i, SigText E s i := by
          rcases signal_iff.1 hs with ⟨m, h, _⟩ | ⟨i, _, h, _⟩
          · exact Or.inl ⟨m, h⟩
          · exact Or.inr ⟨i, h⟩
        rcases hx with rfl | rfl
        · exact ⟨_, _, rfl, by simp, hs'⟩
        · exact ⟨_, _, rfl, by simp, hs'⟩
      · rintro ⟨e, s, rfl, he, hs⟩
        have hv : ∃ v, signal E s = .ok v := by
          rcases hs with ⟨n, rfl⟩ | ⟨i, h⟩
          · exact ⟨_, rfl⟩
          · cases h with
            | name h => exact ⟨.var i, by simp [signal, h]⟩
            | attr h => exact ⟨.var i, by simp [signal, h, Res.ok_bind]⟩
            | str h => exact ⟨_, rfl⟩
        obtain ⟨v, hv⟩ := hv
        cases e with
        | name n => exact ⟨(capitalize n, v), entry_iff.2 ⟨n, s, Or.inl rfl, hv, rfl⟩⟩
        | attr n => exact ⟨(capitalize n, v), entry_iff.2 ⟨n, s, Or.inr rfl, hv, rfl⟩⟩
        | other k => exact absurd rfl (he k)
    have ih := entries_readable (E := E) (es := xs)
    simp only [entries, Res.bind_eq_ok, Res.ok.injEq, List.mem_cons, forall_eq_or_imp]
    rw [← key, ← ih]
    constructor
    · rintro ⟨l, a, ha, m, hm, _⟩; exact ⟨⟨a, ha⟩, m, hm⟩
    · rintro ⟨⟨a, ha⟩, m, hm⟩; exact ⟨_, a, ha, m, hm, rfl⟩

/-- What is read for a decorator without arguments. -/
def rawOf : Kind → Raw
  | .comb g => .comb (some g)
  | .init => .init
  | .final => .final
  | .latch => .latch
  | .seq => .seq []

theorem extract_plain {E : Env} {ds : List Dec} {f : Name} {k : Kind} (hf : (f, k) ∈ plain)
    (hd : ds = [.name f] ∨ ∃ es, ds = [.call (some f) es]) : extract E ds = .ok (rawOf k) := by
  simp only [plain, List.mem_cons, Prod.mk.injEq, List.mem_nil_iff, or_false] at hf
  rcases hd with rfl | ⟨es, rfl⟩ <;> rcases hf with ⟨rfl, rfl⟩ | ⟨rfl, rfl⟩ | ⟨rfl, rfl⟩ | ⟨rfl, rfl⟩ | ⟨rfl, rfl⟩ <;> rfl

theorem extract_ff {E : Env} {es : List Entry} :
    extract E [.call (some "always_ff".toList) es] = (entries E es).bind fun l => .ok (.seq l) := rfl

theorem extract_cases {E : Env} {ds : List Dec} {raw : Raw} (h : extract E ds = .ok raw) :
    (ds = [] ∧ raw = .comb none) ∨
    (∃ f k, (f, k) ∈ plain ∧ (ds = [.name f] ∨ ∃ es, ds = [.call (some f) es]) ∧ raw = rawOf k) ∨
    ∃ es l, ds = [.call (some "always_ff".toList) es] ∧ entries E es = .ok l ∧ raw = .seq l := by
  have key : ∀ (f : Name) (es : Res (List Entry)),
      (if f = "always_comb".toList then Res.ok (Raw.comb (some false))
      else if f = "always".toList then .ok (.comb (some true))
      else if f = "initial".toList then .ok .init
      else if f = "always_latch".toList then .ok .latch
      else if f = "final".toList then .ok .final
      else if f = "always_ff".toList then
        es.bind fun es => (entries E es).bind fun l => .ok (.seq l)
      else .throw .user) = .ok raw →
      (∃ k, (f, k) ∈ plain ∧ raw = rawOf k) ∨
      f = "always_ff".toList ∧ ∃ es' l, es = .ok es' ∧ entries E es' = .ok l ∧ raw = .seq l := by
    intro f es h
    split at h
    · next e => cases h; exact Or.inl ⟨.comb false, by simp [plain, e], rfl⟩
    · split at h
      · next e => cases h; exact Or.inl ⟨.comb true, by simp [plain, e], rfl⟩
      · split at h
        · next e => cases h; exact Or.inl ⟨.init, by simp [plain, e], rfl⟩
        · split at h
          · next e => cases h; exact Or.inl ⟨.latch, by simp [plain, e], rfl⟩
          · split at h
            · next e => cases h; exact Or.inl ⟨.final, by simp [plain, e], rfl⟩
            · split at h
              · next e =>
                simp only [Res.bind_eq_ok] at h
                obtain ⟨es', he, l, hl, h⟩ := h
                cases h
                exact Or.inr ⟨e, es', l, he, hl, rfl⟩
              · cases h
  cases ds with
  | nil => cases h; exact Or.inl ⟨rfl, rfl⟩
  | cons d ds =>
    cases ds with
    | cons _ _ => cases h
    | nil =>
      right
      cases d with
      | other => cases h
      | name f =>
        rcases key f (.throw .user) h with ⟨k, hk, hr⟩ | ⟨_, es', _, he, _⟩
        · exact Or.inl ⟨f, k, hk, Or.inl rfl, hr⟩
        · cases he
      | call f es =>
        cases f with
        | none => cases h
        | some f =>
          rcases key f (.ok es) h with ⟨k, hk, hr⟩ | ⟨hf, es', l, he, hl, hr⟩
          · exact Or.inl ⟨f, k, hk, Or.inr ⟨es, rfl⟩, hr⟩
          · cases he
            subst hf
            exact Or.inr ⟨es, l, rfl, hl, hr⟩

theorem extract_readable {E : Env} {ds : List Dec} : (∃ raw, extract E ds = .ok raw) ↔ Readable E ds := by
  constructor
  · rintro ⟨raw, h⟩
    rcases extract_cases h with ⟨rfl, _⟩ | ⟨f, k, hf, hd, _⟩ | ⟨es, l, rfl, hl, _⟩
    · exact Or.inl rfl
    · exact Or.inr (Or.inl ⟨f, k, hf, hd⟩)
    · exact Or.inr (Or.inr ⟨es, rfl, entries_readable.1 ⟨l, hl⟩⟩)
  · rintro (rfl | ⟨f, k, hf, hd⟩ | ⟨es, rfl, h⟩)
    · exact ⟨_, rfl⟩
    · exact ⟨_, extract_plain hf hd⟩
    · obtain ⟨l, hl⟩ := entries_readable.2 h
      exact ⟨.seq l, by rw [extract_ff, hl]; rfl⟩

/-! ### Theorems -/

/-- An accepted call appends one block, which is as the call asks, returns it, and records the label. -/
theorem add_ok {E : Env} {add : Kind → S → Option Err} {st st' : St S} {r : Req S} {n : Nat}
    (h : addAlways E add st r = (st', .ok n)) :
    n = st.blocks.length ∧ HasArgs r ∧ ∃ k q ss b, Asks E r k q ∧ r.body = .ok ss ∧ (∀ s ∈ ss, add k s = none) ∧
      Made r k q ss b ∧ st'.blocks = st.blocks ++ [b] ∧
      (∀ l, r.label = some l → (∀ i, (l, i) ∉ st.labels) ∧ st'.labels = st.labels ++ [(l, n)]) ∧
      (r.label = none → st'.labels = st.labels) := by
  unfold addAlways at h
  dsimp only at h
  cases hpre : ((takeArgs r.params r.kargs).bind fun left => (extract E r.decs).bind fun raw =>
      r.body.bind fun ss => Res.ok (left, raw, ss)) with
  | throw e => rw [hpre] at h; simp at h
  | ub => rw [hpre] at h; simp at h
  | ok p =>
    rw [hpre] at h
    simp only [Res.bind_eq_ok, Res.ok.injEq] at hpre
    obtain ⟨left, hleft, raw, hraw, ss, hss, rfl⟩ := hpre
    obtain ⟨hargs, rfl⟩ := takeArgs_iff.1 hleft
    simp only at h
    have fin : ∀ {k cs}, create add st r (r.kargs.filter fun k => !((r.params.getD []).contains k.1)) k cs ss =
        (st', .ok n) → (∀ q, cs = lift q → Asks E r k q) →
        n = st.blocks.length ∧ HasArgs r ∧ ∃ k q ss b, Asks E r k q ∧ r.body = .ok ss ∧ (∀ s ∈ ss, add k s = none) ∧
          Made r k q ss b ∧ st'.blocks = st.blocks ++ [b] ∧
          (∀ l, r.label = some l → (∀ i, (l, i) ∉ st.labels) ∧ st'.labels = st.labels ++ [(l, n)]) ∧
          (r.label = none → st'.labels = st.labels) := by
      intro k cs hc hq
      obtain ⟨h1, h2, ⟨q, conds, h3, h4, h5⟩, h6, h7⟩ := create_ok hc
      exact ⟨h1, hargs, k, q, ss, _, hq q h3, hss, h2, ⟨rfl, h4, rfl, rfl, fun a => attrs_mem⟩, h5, h6, h7⟩
    have nolift : ∀ q, ([] : List (Edge × Option Nat)) = lift q → q = [] := by
      intro q hq
      cases q with
      | nil => rfl
      | cons p q => simp [lift] at hq
    by_cases hsens : r.sens = []
    · rw [if_pos hsens] at h
      rcases extract_cases hraw with ⟨hd, rfl⟩ | ⟨f, k, hf, hd, rfl⟩ | ⟨es, l, hd, hl, rfl⟩
      · simp at h
      · have hk : k ≠ .seq := by
          rintro rfl
          simp [plain] at hf
        have hcr : create add st r (r.kargs.filter fun k => !((r.params.getD []).contains k.1)) k [] ss =
            (st', .ok n) := by
          cases k with
          | seq => exact absurd rfl hk
          | comb g => exact h
          | init => exact h
          | final => exact h
          | latch => exact h
        refine fin hcr fun q hq => ?_
        rw [nolift q hq]
        exact .plain hsens hd hf
      · simp only at h
        cases hres : resolve E l with
        | throw e => rw [hres] at h; simp at h
        | ub => rw [hres] at h; simp at h
        | ok cs =>
          rw [hres] at h
          refine fin h fun q hq => ?_
          subst hq
          exact .ff hsens hd (ff_iff.1 ⟨l, hl, hres⟩)
    · rw [if_neg hsens] at h
      simp only at h
      cases hres : resolve E r.sens with
      | throw e => rw [hres] at h; simp at h
      | ub => rw [hres] at h; simp at h
      | ok cs =>
        rw [hres] at h
        refine fin h fun q hq => ?_
        subst hq
        exact .sens hsens (extract_readable.1 ⟨raw, hraw⟩) (sens_iff.1 hres)

/-- A call is accepted just if the function has its arguments, the decorator or the keyword asks for a kind of block and
events that exist, the body can be translated, the block takes all statements, and the label is new. -/
theorem add_ok_iff {E : Env} {add : Kind → S → Option Err} {st : St S} {r : Req S} :
    (∃ n, (addAlways E add st r).2 = .ok n) ↔
      HasArgs r ∧ ∃ k q ss, Asks E r k q ∧ r.body = .ok ss ∧ (∀ s ∈ ss, add k s = none) ∧
        ∀ l, r.label = some l → ∀ i, (l, i) ∉ st.labels := by
  constructor
  · rintro ⟨n, h⟩
    obtain ⟨_, h1, k, q, ss, b, h2, h3, h4, _, _, h5, _⟩ :=
      add_ok (E := E) (add := add) (st := st) (st' := (addAlways E add st r).1) (r := r) (n := n) (by rw [← h])
    exact ⟨h1, k, q, ss, h2, h3, h4, fun l hl => (h5 l hl).1⟩
  · rintro ⟨h1, k, q, ss, h2, h3, h4, h5⟩
    have hleft := takeArgs_iff.2 ⟨h1, rfl⟩
    have pre : ∀ {raw}, extract E r.decs = .ok raw →
        ((takeArgs r.params r.kargs).bind fun left => (extract E r.decs).bind fun raw =>
          r.body.bind fun ss => Res.ok (left, raw, ss)) =
        .ok (r.kargs.filter fun k => !((r.params.getD []).contains k.1), raw, ss) := by
      intro raw h
      rw [hleft, h, h3]; rfl
    obtain ⟨st', n, hc⟩ := create_accepts (add := add) (st := st) (r := r)
      (left := r.kargs.filter fun k => !((r.params.getD []).contains k.1)) (k := k) (q := q) h4 h5
    refine ⟨n, ?_⟩
    unfold addAlways
    dsimp only
    cases h2 with
    | @plain f _ hs hd hf =>
      rw [pre (extract_plain hf hd)]
      simp only [if_pos hs]
      have hk : k ≠ .seq := by
        rintro rfl
        simp [plain] at hf
      have hc' : create add st r (r.kargs.filter fun k => !((r.params.getD []).contains k.1)) k [] ss =
        (st', .ok n) := hc
      cases k with
      | seq => exact absurd rfl hk
      | comb g => simp only [rawOf]; rw [hc']
      | init => simp only [rawOf]; rw [hc']
      | final => simp only [rawOf]; rw [hc']
      | latch => simp only [rawOf]; rw [hc']
    | ff hs hd hq =>
      obtain ⟨l, hl, hres⟩ := ff_iff.2 hq
      rw [pre (by rw [hd, extract_ff, hl]; rfl)]
      simp only [if_pos hs, hres]
      rw [hc]
    | sens hs hd hq =>
      obtain ⟨raw, hraw⟩ := extract_readable.2 hd
      rw [pre hraw]
      simp only [if_neg hs, sens_iff.2 hq]
      rw [hc]

/-- A refused call leaves the labels alone, and leaves either nothing or one more block, with the first of the statements
of the body. -/
theorem add_refused {E : Env} {add : Kind → S → Option Err} {st : St S} {r : Req S}
    (h : ∀ n, (addAlways E add st r).2 ≠ .ok n) :
    (addAlways E add st r).1 = st ∨
    (addAlways E add st r).1.labels = st.labels ∧
      ∃ b ss rest, (addAlways E add st r).1.blocks = st.blocks ++ [b] ∧ r.body = .ok ss ∧ ss = b.stmts ++ rest := by
  revert h
  unfold addAlways
  dsimp only
  cases hpre : ((takeArgs r.params r.kargs).bind fun left => (extract E r.decs).bind fun raw =>
      r.body.bind fun ss => Res.ok (left, raw, ss)) with
  | throw e => exact fun _ => Or.inl rfl
  | ub => exact fun _ => Or.inl rfl
  | ok p =>
    simp only [Res.bind_eq_ok, Res.ok.injEq] at hpre
    obtain ⟨left, hleft, raw, hraw, ss, hss, rfl⟩ := hpre
    simp only
    have fin : ∀ k cs, (∀ n, (create add st r left k cs ss).2 ≠ .ok n) →
        (create add st r left k cs ss).1 = st ∨
        (create add st r left k cs ss).1.labels = st.labels ∧
          ∃ b ss' rest, (create add st r left k cs ss).1.blocks = st.blocks ++ [b] ∧ r.body = .ok ss' ∧
            ss' = b.stmts ++ rest := by
      intro k cs h
      obtain ⟨b, h1, _, ⟨rest, h2⟩, h3⟩ := create_leaves add st r left k cs ss
      exact Or.inr ⟨h3 h, b, ss, rest, h1, hss, h2⟩
    split
    · exact fun _ => Or.inl rfl
    · exact fin _ _
    · exact fin _ _
    · exact fin _ _
    · exact fin _ _
    · split
      · exact fun _ => Or.inl rfl
      · exact fun _ => Or.inl rfl
      · exact fin _ _

/-- A function without a decorator is refused, unless the keyword `sensitivity` is given. -/
theorem bare_refused {E : Env} {add : Kind → S → Option Err} {st : St S} {r : Req S} (hd : r.decs = [])
    (hs : r.sens = []) (n : Nat) : (addAlways E add st r).2 ≠ .ok n := by
  intro h
  obtain ⟨_, k, q, ss, ha, _⟩ := add_ok_iff.1 ⟨n, h⟩
  cases ha with
  | plain _ hd' _ =>
    rw [hd] at hd'
    rcases hd' with h | ⟨_, h⟩ <;> cases h
  | ff _ hd' _ => rw [hd] at hd'; cases hd'
  | sens hs' _ _ => exact hs' hs

/-- Partial: if the names mean the same where the function is defined and where it is added, and edges go by their own
names, the block waits for what the decorator was given. -/
theorem decorator_partial {D E : Env} {add : Kind → S → Option Err} {st st' : St S} {r : Req S} {es : List Entry}
    {gs : List (Edge × Val)} {n : Nat} (hloc : E.loc = D.loc) (hattr : E.attr = D.attr)
    (hnames : ∀ m e e', D.loc m = some (.edge e) → Spelled m e' → e = e')
    (hs : r.sens = []) (hd : r.decs = [.call (some "always_ff".toList) es]) (hg : All2 (Given D) es gs)
    (h : addAlways E add st r = (st', .ok n)) :
    ∃ b q, st'.blocks = st.blocks ++ [b] ∧ All2 (Event E) gs q ∧ Events q b.conds := by
  obtain ⟨_, _, k, q, ss, b, ha, _, _, hm, hb, _⟩ := add_ok h
  refine ⟨b, q, hb, ?_, hm.2.1⟩
  have hq : All2 (AsksD E) es q := by
    cases ha with
    | plain _ hd' hf =>
      rw [hd] at hd'
      rcases hd' with h | ⟨es', h⟩
      · cases h
      · cases h
        simp [plain] at hf
    | ff _ hd' hq => rw [hd] at hd'; cases hd'; exact hq
    | sens hs' _ _ => exact absurd hs hs'
  have spelled_unique : ∀ {m e e'}, Spelled m e → Spelled m e' → e = e' := by
    intro m e e' h1 h2
    have a := edge_spelled.2 h1
    have b := edge_spelled.2 h2
    rw [a] at b
    cases b; rfl
  clear h ha hm hb hd
  induction hg generalizing q with
  | nil => cases hq; exact .nil
  | cons h1 _ ih =>
    cases hq with
    | cons h2 hq =>
      refine .cons ?_ (ih _ hq)
      obtain ⟨e, s, rfl, he, hsig⟩ := h2
      cases h1 with
      | mk g1 g2 =>
        refine ⟨?_, ?_⟩
        · obtain ⟨m, ⟨rfl, hl⟩ | ⟨rfl, hl⟩⟩ := g1
          · cases he with | name he => exact hnames _ _ _ hl he
          · cases he with | attr he => exact spelled_unique hl he
        · rcases g2 with ⟨m, rfl, hv⟩ | ⟨k, rfl, hv⟩ | ⟨m, rfl, rfl⟩
          · cases hsig with
            | name h => rw [hloc, hv] at h; cases h; exact Or.inl rfl
          · cases hsig with
            | attr h => rw [hattr, hv] at h; cases h; exact Or.inl rfl
          · cases hsig with
            | str h => exact Or.inr ⟨m, rfl, h⟩

/-! ### Cases -/

def clk : Name := "clk".toList
def posedge : Name := "posedge".toList

/-- `posedge` and a local variable `clk`. -/
def env (i : Nat) : Env where
  loc n := if n = clk then some (.var i) else if n = posedge then some (.edge .pos) else none
  attr _ := .throw .user
  var n := if n = clk then some i else none

def noAdd : Kind → Nat → Option Err := fun _ _ => none
def empty : St Nat := ⟨[], []⟩

def ffDec (s : SigNode) : Dec := .call (some "always_ff".toList) [.pair (.name posedge) s]

def req (s : SigNode) : Req Nat := ⟨some [], [ffDec s], [], .ok [7], [], [], none, false⟩

def blk (i : Nat) : Block Nat := ⟨.seq, [(.pos, i)], [7], [], []⟩

theorem req_ok (i : Nat) : addAlways (env i) noAdd empty (req (.name clk)) = (⟨[blk i], []⟩, .ok 0) := rfl

/-- A name that the generator does not know: an empty block stays. -/
theorem not_AtomicClaim : ¬ AtomicClaim := by
  intro h
  have e : addAlways (env 0) noAdd empty (req (.str ['x'])) = (⟨[⟨.seq, [], [], [], []⟩], []⟩, .throw .user) := rfl
  have := h (env 0) noAdd empty (req (.str ['x'])) (by rw [e]; simp)
  rw [e] at this
  cases this

theorem not_QualifiedClaim : ¬ QualifiedClaim := by
  intro h
  obtain ⟨m, hm⟩ := h (env 0) noAdd empty (req (.name clk)) _ 0 rfl (by rw [req_ok])
  have e : (addAlways (env 0) noAdd empty { req (.name clk) with
    decs := [.call none [.pair (.name posedge) (.name clk)]] }).2 = .throw .user := rfl
  rw [e] at hm
  cases hm

/-- `clk` is another variable where the block is added. -/
theorem not_DecoratorClaim : ¬ DecoratorClaim := by
  intro h
  obtain ⟨b, q, hb, hq, hev⟩ := h (env 0) (env 1) noAdd empty _ (req (.name clk)) _ [(.pos, .var 0)] 0 rfl rfl
    (.cons (.mk ⟨posedge, Or.inl ⟨rfl, rfl⟩⟩ (Or.inl ⟨clk, rfl, rfl⟩)) .nil) (req_ok 1)
  have hb' : [blk 1] = [b] := hb
  cases hb'
  cases hq with
  | cons h1 h2 =>
    cases h2
    have hin := hev.2.1.subset (show (Edge.pos, 1) ∈ (blk 1).conds from by simp [blk])
    simp at hin
    rcases h1 with ⟨_, h1 | ⟨s, h1, _⟩⟩
    · rw [← hin] at h1; cases h1
    · cases h1

/-- The hypotheses of `decorator_partial` with both environments the same. -/
example : ∃ gs st', All2 (Given (env 3)) [.pair (.name posedge) (.name clk)] gs ∧
    (∀ m e e', (env 3).loc m = some (.edge e) → Spelled m e' → e = e') ∧
    addAlways (env 3) noAdd empty (req (.name clk)) = (st', .ok 0) := by
  refine ⟨[(.pos, .var 3)], _, .cons (.mk ⟨posedge, Or.inl ⟨rfl, rfl⟩⟩ (Or.inl ⟨clk, rfl, rfl⟩)) .nil, ?_, req_ok 3⟩
  intro m e e' h hs
  simp only [env] at h
  split at h
  · cases h
  · split at h
    · next hm =>
      cases h
      subst hm
      have : edgeOf (capitalize posedge) = some .pos := by decide
      rw [edge_spelled.2 hs] at this
      cases this; rfl
    · cases h

/-- A block with an argument, an attribute, a label and events given twice. -/
example : addAlways (env 3) noAdd empty
      ⟨some [['i']], [.name "always_comb".toList], [(['i'], true), (['k'], true)], .ok [1, 2],
        [("Posedge".toList, .var 4), ("Negedge".toList, .str clk), ("Posedge".toList, .var 4)], ['c'], some ['l'], false⟩ =
    (⟨[⟨.seq, [(.pos, 4), (.neg, 3)], [1, 2], ['c'], [['k']]⟩], [(['l'], 0)]⟩, .ok 0) := by decide +kernel

end Kratos.Always
