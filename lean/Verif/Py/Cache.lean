import Verif.Base

/-! # C90: generators taken from the cache

`Cls.create(**kargs)` and `Cls.clone(**kargs)` (kratos/generator.py:930-983) remember the generators
of a class in a dictionary and hand out light-weight copies when the same arguments are given
again; `initialize_clone` (920-926) turns such a copy into a full generator.  A user relies on three
things: a copy stands for a generator built from the arguments they gave; a copy that has been
initialized is the generator the constructor describes; and the modules that are emitted are the
ones they asked for. -/

namespace Kratos.Cache

open Kratos

/-- What a constructor does to the generator, one call of the Python interface after the other:
`decl` stands for everything that is carried out at once also in a copy (ports, variables,
parameters); the others check `is_cloned` first (kratos/generator.py:401-419, 620-626, 714-720,
783-803).  `opts` of `code` are the arguments of `add_always` besides the function and the comment
(label, sensitivity, unroll_for, ssa_transform and the attributes); `wires` of `child` the
connections given as keyword arguments; `used` tells whether the constructor goes on to use the
block that `combinational()`, `initial()` or `sequential()` returned.  Things that are passed along
are numbers. -/
inductive Act where
  | decl (d : Nat)
  | wire (a b : Nat) (attrs : List Nat) (comment : String)
  | stmt (s : Nat)
  | unstmt (s : Nat)
  | code (fn : Nat) (comment : String) (opts : List (String × Nat))
  | child (inst : String) (g : Nat) (comment : String) (pyOnly : Bool) (wires : List (String × Nat))
  | block (k : Nat) (used : Bool)
  | seq (sens : List (Bool × Nat)) (used : Bool)
  deriving DecidableEq, Repr

/-- A class of generators: Python's `hash` on the names and on the values of the arguments (or the
value's own `hash()` method), what the constructor does for given arguments, and the name it gives
the module.  Python's integers are unbounded; `n` is any number of bits that holds the hashes in
play, `^` and `<<` on them being the bitwise operations. -/
structure Cls (K V : Type) (n : Nat) where
  hk : K → BitVec n
  hv : V → BitVec n
  prog : List (K × V) → List Act
  nameOf : List (K × V) → String

variable {K V : Type} {n : Nat}

/-- The key under which a generator is remembered (`__cached_py_generator`,
kratos/generator.py:931-938). -/
def hashOf (c : Cls K V n) (kw : List (K × V)) : BitVec n :=
  kw.foldl (fun h p => h ^^^ (c.hk p.1 <<< 16) ^^^ c.hv p.2) 0#n

/-- A generator object: the arguments it was asked for with, its module's name, whether it is
external and whether it is still a copy, the generator its `def_instance` is, what has been done to
it, and what `__cached_initialization` holds. -/
structure Gen (K V : Type) where
  asked : List (K × V)
  name : String
  ext : Bool
  cloned : Bool
  defn : Nat
  body : List Act
  pending : List Act

/-- The constructor of a proper generator: everything is carried out
(`Generator.__init__`, kratos/generator.py:231-282, `__def_instance = self`). -/
def direct (c : Cls K V n) (kw : List (K × V)) (id : Nat) : Gen K V :=
  ⟨kw, c.nameOf kw, false, false, id, c.prog kw, []⟩

/-- What a copy writes down instead of carrying a call out: `wire` keeps its arguments
(kratos/generator.py:714-720), `add_stmt`/`remove_stmt` the statement (784-796), `add_always` the
function and the comment only (624-626), `add_child_generator` the instance name and the generator
only (800-803), `combinational`/`initial`/`sequential` (401-419). -/
def record : Act → Act
  | .code f cm _ => .code f cm []
  | .child i g _ _ _ => .child i g "" false []
  | .block k _ => .block k false
  | .seq es _ => .seq es false
  | a => a

/-- The constructor of a copy (`is_clone=True`): declarations are carried out, the rest is written
down; `combinational()`, `initial()` and `sequential()` return `None`, and using that raises
`AttributeError` (here `none`). -/
def lazyRun : List Act → Option (List Act × List Act)
  | [] => some ([], [])
  | a :: as =>
    match a with
    | .decl d => (lazyRun as).map fun p => (.decl d :: p.1, p.2)
    | .block _ true => none
    | .seq _ true => none
    | _ => (lazyRun as).map fun p => (p.1, record a :: p.2)

/-- The replay of what was written down (kratos/generator.py:923-924): the calls are made with the
recorded arguments, now on a generator that is not a copy.  `sequential` was recorded with its
whole sensitivity list as one argument, so that `SequentialCodeBlock` unpacks a list of edges where
it expects an edge and a variable (82-92) and raises.  The second component tells whether the replay
raised. -/
def replay : List Act → List Act × Bool
  | [] => ([], false)
  | .seq _ _ :: _ => ([], true)
  | a :: as => let r := replay as; (a :: r.1, r.2)

/-- `initialize_clone` (kratos/generator.py:920-926). -/
def initOf (g : Gen K V) : Gen K V × Bool :=
  if g.cloned then
    let r := replay g.pending
    ({ g with cloned := false, body := g.body ++ r.1,
              pending := if r.2 then g.pending else [] }, r.2)
  else (g, false)

/-- The generators of a class and its `_cache` (kratos/generator.py:220-225), newest entry first. -/
structure St (K V : Type) (n : Nat) where
  gens : List (Gen K V)
  cache : List (BitVec n × Nat)

def start : St K V n := ⟨[], []⟩

/-- `hash_value in cls._cache`. -/
def find (h : BitVec n) : List (BitVec n × Nat) → Option Nat
  | [] => none
  | e :: es => if e.1 = h then some e.2 else find h es

inductive Op (K V : Type) where
  | new (kw : List (K × V))
  | create (kw : List (K × V))
  | clone (kw : List (K × V))
  | init (g : Nat)
  | clear

/-- One call.  `create` (kratos/generator.py:968-980) and `clone` (946-966) look the arguments up;
when they are new, a proper generator is built and remembered; otherwise `create` runs the
constructor with `is_clone=True`, and `clone` copies the ports of the remembered generator
(`Generator::clone`, src/generator.cc:1021-1049; the copy has its definition's name, is external, and
is asked for with `kw`).  `init` is `initialize_clone`, `clear` is `clear_context` (878-890).
Global debugging, which switches `create`'s cache off, is `new`.  Constructors that create
generators of their own class are not modelled. -/
def step (c : Cls K V n) (s : St K V n) : Op K V → St K V n
  | .new kw => { s with gens := s.gens ++ [direct c kw s.gens.length] }
  | .create kw =>
    match find (hashOf c kw) s.cache with
    | none => ⟨s.gens ++ [direct c kw s.gens.length], (hashOf c kw, s.gens.length) :: s.cache⟩
    | some d =>
      match lazyRun (c.prog kw) with
      | none => s
      | some p => { s with gens := s.gens ++ [⟨kw, c.nameOf kw, false, true, d, p.1, p.2⟩] }
  | .clone kw =>
    match find (hashOf c kw) s.cache with
    | none => ⟨s.gens ++ [direct c kw s.gens.length], (hashOf c kw, s.gens.length) :: s.cache⟩
    | some d =>
      match s.gens[d]? with
      | none => s
      | some g => { s with gens := s.gens ++ [⟨kw, g.name, true, true, d, [], []⟩] }
  | .init i =>
    match s.gens[i]? with
    | none => s
    | some g => { s with gens := s.gens.set i (initOf g).1 }
  | .clear => { s with cache := [] }

def run (c : Cls K V n) : St K V n → List (Op K V) → St K V n
  | s, [] => s
  | s, o :: os => run c (step c s o) os

/-- The modules that are written out: of the generators of a hierarchy, in the order in which they
are visited, the first one of each name that is not external (`UniqueGeneratorVisitor`,
src/codegen.cc:1353-1366; nothing asks whether it is a copy). -/
def emitted (gens : List (Gen K V)) (order : List Nat) (nm : String) : Option (Gen K V) :=
  match order with
  | [] => none
  | i :: is =>
    match gens[i]? with
    | none => emitted gens is nm
    | some g => if g.name = nm ∧ g.ext = false then some g else emitted gens is nm

/-! ## Specification -/

/-- The arguments of a history. -/
def askedIn : List (Op K V) → List (List (K × V))
  | [] => []
  | .create kw :: os => kw :: askedIn os
  | .clone kw :: os => kw :: askedIn os
  | _ :: os => askedIn os

/-- Every generator's definition was built from the arguments that were given for the generator
(the order of keyword arguments does not matter). -/
def Asked (s : St K V n) : Prop :=
  ∀ (i : Nat) (g : Gen K V), s.gens[i]? = some g →
    ∃ d : Gen K V, s.gens[g.defn]? = some d ∧ d.asked.Perm g.asked

def isDecl : Act → Bool
  | .decl _ => true
  | _ => false

/-- The same declarations in the same order, and the same other things in the same order. -/
def Same (a b : List Act) : Prop :=
  a.filter isDecl = b.filter isDecl ∧
  a.filter (fun x => !isDecl x) = b.filter (fun x => !isDecl x)

/-- Calls that survive being written down: no options on `add_always`; no comment, option or
connection on `add_child_generator`; no `sequential`. -/
def Plain : Act → Prop
  | .code _ _ opts => opts = []
  | .child _ _ cm py ws => cm = "" ∧ py = false ∧ ws = []
  | .seq _ _ => False
  | _ => True

/-- The whole claim: whatever the calls, a generator's definition has its arguments; ... -/
def CacheClaim : Prop :=
  ∀ (K V : Type) (n : Nat) (c : Cls K V n) (os : List (Op K V)), Asked (run c start os)

/-- ... a copy that is initialized becomes what its constructor says; ... -/
def InitClaim : Prop :=
  ∀ (prog : List Act) (p : List Act × List Act), lazyRun prog = some p →
    Same (p.1 ++ (replay p.2).1) prog ∧ (replay p.2).2 = false

/-- ... and every module of a hierarchy is written out with what its constructor says. -/
def TextClaim : Prop :=
  ∀ (K V : Type) (n : Nat) (c : Cls K V n) (os : List (Op K V)) (order : List Nat) (i : Nat)
    (g : Gen K V), i ∈ order → (run c start os).gens[i]? = some g →
    ∃ m, emitted (run c start os).gens order g.name = some m ∧ Same m.body (c.prog g.asked)

/-! ## The key -/

theorem foldl_xor (c : Cls K V n) (kw : List (K × V)) (h : BitVec n) :
    kw.foldl (fun h p => h ^^^ (c.hk p.1 <<< 16) ^^^ c.hv p.2) h = h ^^^ hashOf c kw := by
  unfold hashOf
  induction kw generalizing h with
  | nil => simp
  | cons p ps ih =>
    simp only [List.foldl_cons]
    rw [ih, ih (0#n ^^^ _ ^^^ _)]
    simp [BitVec.xor_assoc]

theorem hash_cons (c : Cls K V n) (p : K × V) (kw : List (K × V)) :
    hashOf c (p :: kw) = (c.hk p.1 <<< 16) ^^^ c.hv p.2 ^^^ hashOf c kw := by
  have := foldl_xor c kw ((c.hk p.1 <<< 16) ^^^ c.hv p.2)
  rw [← this]
  unfold hashOf
  simp

/-- The order in which arguments are given does not matter. -/
theorem order_free (c : Cls K V n) (a b : List (K × V)) (h : a.Perm b) :
    hashOf c a = hashOf c b := by
  induction h with
  | nil => rfl
  | cons x _ ih => rw [hash_cons, hash_cons, ih]
  | swap x y l =>
    simp only [hash_cons]
    generalize (c.hk x.1 <<< 16) ^^^ c.hv x.2 = u
    generalize (c.hk y.1 <<< 16) ^^^ c.hv y.2 = v
    rw [← BitVec.xor_assoc, ← BitVec.xor_assoc, BitVec.xor_comm v u]
  | trans _ _ i1 i2 => rw [i1, i2]

/-- Whatever the hash functions, exchanging the values of two arguments keeps the key ... -/
theorem swapped_key (c : Cls K V n) (k l : K) (a b : V) (kw : List (K × V)) :
    hashOf c ((k, a) :: (l, b) :: kw) = hashOf c ((k, b) :: (l, a) :: kw) := by
  simp only [hash_cons]
  ext i hi
  simp only [BitVec.getElem_xor]
  generalize (c.hk k <<< 16)[i] = x1
  generalize (c.hk l <<< 16)[i] = x2
  generalize (c.hv a)[i] = y1
  generalize (c.hv b)[i] = y2
  generalize (hashOf c kw)[i] = z
  cases x1 <;> cases x2 <;> cases y1 <;> cases y2 <;> cases z <;> rfl

/-- ... and so does giving two arguments another common value. -/
theorem equal_key (c : Cls K V n) (k l : K) (a b : V) (kw : List (K × V)) :
    hashOf c ((k, a) :: (l, a) :: kw) = hashOf c ((k, b) :: (l, b) :: kw) := by
  simp only [hash_cons]
  ext i hi
  simp only [BitVec.getElem_xor]
  generalize (c.hk k <<< 16)[i] = x1
  generalize (c.hk l <<< 16)[i] = x2
  generalize (c.hv a)[i] = y1
  generalize (c.hv b)[i] = y2
  generalize (hashOf c kw)[i] = z
  cases x1 <;> cases x2 <;> cases y1 <;> cases y2 <;> cases z <;> rfl

theorem reused (c : Cls K V n) (kw kw' : List (K × V)) (h : hashOf c kw = hashOf c kw')
    (p : List Act × List Act) (hp : lazyRun (c.prog kw') = some p) :
    (run c start [.create kw, .create kw']).gens =
      [direct c kw 0, ⟨kw', c.nameOf kw', false, true, 0, p.1, p.2⟩] := by
  simp [run, step, start, find, h, hp]

/-- `Cls.create(k=a, l=b)` followed by `Cls.create(k=b, l=a)` gives, whatever `hash` is, a copy of
the first generator. -/
theorem swapped_wrong (c : Cls K V n) (k l : K) (a b : V)
    (p : List Act × List Act) (hp : lazyRun (c.prog [(k, b), (l, a)]) = some p) :
    ∃ g d, (run c start [.create [(k, a), (l, b)], .create [(k, b), (l, a)]]).gens = [d, g] ∧
      g.cloned = true ∧ g.defn = 0 ∧ g.asked = [(k, b), (l, a)] ∧ d.asked = [(k, a), (l, b)] := by
  refine ⟨_, _, reused c _ _ (swapped_key c k l a b []) p hp, rfl, rfl, rfl, rfl⟩

/-- `Cls.create(k=a, l=a)` followed by `Cls.create(k=b, l=b)` does, too. -/
theorem equal_wrong (c : Cls K V n) (k l : K) (a b : V)
    (p : List Act × List Act) (hp : lazyRun (c.prog [(k, b), (l, b)]) = some p) :
    ∃ g d, (run c start [.create [(k, a), (l, a)], .create [(k, b), (l, b)]]).gens = [d, g] ∧
      g.cloned = true ∧ g.defn = 0 ∧ g.asked = [(k, b), (l, b)] ∧ d.asked = [(k, a), (l, a)] := by
  refine ⟨_, _, reused c _ _ (equal_key c k l a b []) p hp, rfl, rfl, rfl, rfl⟩

/-! ## Histories -/

/-- What holds of the generators of a class as long as no two different sets of arguments have the
same key. -/
structure Inv (c : Cls K V n) (s : St K V n) : Prop where
  defn : ∀ (i : Nat) g, s.gens[i]? = some g → ∃ d, s.gens[g.defn]? = some d ∧
    d.asked.Perm g.asked ∧ d.cloned = false ∧ d.ext = false ∧ d.body = c.prog d.asked ∧
    d.name = c.nameOf d.asked ∧ (g.ext = true → g.name = d.name)
  name : ∀ (i : Nat) g, s.gens[i]? = some g → g.ext = false → g.name = c.nameOf g.asked
  plain : ∀ (i : Nat) g, s.gens[i]? = some g → g.defn = i → g.body = c.prog g.asked ∧ g.cloned = false
  key : ∀ h i, (h, i) ∈ s.cache → ∃ g, s.gens[i]? = some g ∧ hashOf c g.asked = h ∧ g.defn = i ∧
    g.ext = false

theorem getElem?_snoc {α : Type} (l : List α) (x : α) (i : Nat) (y : α) (h : (l ++ [x])[i]? = some y) :
    l[i]? = some y ∨ (i = l.length ∧ y = x) := by
  rw [List.getElem?_append] at h
  split at h
  · exact .inl h
  · rename_i hl
    have hi : i - l.length = 0 := by
      cases hd : i - l.length with
      | zero => rfl
      | succ k => rw [hd] at h; simp at h
    rw [hi] at h
    simp at h
    exact .inr ⟨by omega, h.symm⟩

theorem getElem?_old {α : Type} (l : List α) (x : α) (i : Nat) (y : α) (h : l[i]? = some y) :
    (l ++ [x])[i]? = some y := by
  have : i < l.length := by
    rcases Nat.lt_or_ge i l.length with h1 | h1
    · exact h1
    · rw [List.getElem?_eq_none h1] at h; cases h
  rw [List.getElem?_append_left this]; exact h

theorem find_mem {h : BitVec n} {es : List (BitVec n × Nat)} {d : Nat} (hf : find h es = some d) :
    (h, d) ∈ es := by
  induction es with
  | nil => simp [find] at hf
  | cons e es ih =>
    unfold find at hf
    split at hf
    · rename_i he
      cases hf
      rw [← he]; exact List.mem_cons_self
    · exact List.mem_cons_of_mem _ (ih hf)

theorem inv_add (c : Cls K V n) (s : St K V n) (hi : Inv c s) (g : Gen K V)
    (hd : ∃ d, (s.gens ++ [g])[g.defn]? = some d ∧ d.asked.Perm g.asked ∧ d.cloned = false ∧
      d.ext = false ∧ d.body = c.prog d.asked ∧ d.name = c.nameOf d.asked ∧
      (g.ext = true → g.name = d.name))
    (hn : g.ext = false → g.name = c.nameOf g.asked)
    (hp : g.defn = s.gens.length → g.body = c.prog g.asked ∧ g.cloned = false) :
    Inv c { s with gens := s.gens ++ [g] } := by
  refine ⟨?_, ?_, ?_, ?_⟩
  · intro i x hx
    rcases getElem?_snoc _ _ _ _ hx with h | ⟨rfl, rfl⟩
    · obtain ⟨d, h1, h2⟩ := hi.defn i x h
      exact ⟨d, getElem?_old _ _ _ _ h1, h2⟩
    · exact hd
  · intro i x hx he
    rcases getElem?_snoc _ _ _ _ hx with h | ⟨rfl, rfl⟩
    · exact hi.name i x h he
    · exact hn he
  · intro i x hx he
    rcases getElem?_snoc _ _ _ _ hx with h | ⟨rfl, rfl⟩
    · exact hi.plain i x h he
    · exact hp he
  · intro h i hm
    obtain ⟨x, h1, h2⟩ := hi.key h i hm
    exact ⟨x, getElem?_old _ _ _ _ h1, h2⟩

theorem inv_direct (c : Cls K V n) (s : St K V n) (hi : Inv c s) (kw : List (K × V)) :
    Inv c { s with gens := s.gens ++ [direct c kw s.gens.length] } := by
  refine inv_add c s hi _ ?_ (fun _ => rfl) (fun _ => ⟨rfl, rfl⟩)
  refine ⟨direct c kw s.gens.length, ?_, List.Perm.refl _, rfl, rfl, rfl, rfl, fun _ => rfl⟩
  show (s.gens ++ [direct c kw s.gens.length])[s.gens.length]? = _
  simp

theorem inv_remember (c : Cls K V n) (s : St K V n) (hi : Inv c s) (kw : List (K × V)) :
    Inv c ⟨s.gens ++ [direct c kw s.gens.length], (hashOf c kw, s.gens.length) :: s.cache⟩ := by
  have h := inv_direct c s hi kw
  refine ⟨h.defn, h.name, h.plain, ?_⟩
  intro k i hm
  rcases List.mem_cons.1 hm with he | hm
  · cases he
    exact ⟨direct c kw s.gens.length, by simp, rfl, rfl, rfl⟩
  · exact h.key k i hm

/-- No two different sets of arguments of the history have the same key. -/
def NoClash (c : Cls K V n) (kws : List (List (K × V))) : Prop :=
  ∀ a ∈ kws, ∀ b ∈ kws, hashOf c a = hashOf c b → a.Perm b

theorem askedIn_sub (o : Op K V) (os : List (Op K V)) (x) (h : x ∈ askedIn os) :
    x ∈ askedIn (o :: os) := by
  cases o <;> simp [askedIn, h]

/-- The cached entries were all asked for in `seen`. -/
def Seen (s : St K V n) (seen : List (List (K × V))) : Prop :=
  ∀ h i, (h, i) ∈ s.cache → ∀ g, s.gens[i]? = some g → g.asked ∈ seen

theorem inv_set (c : Cls K V n) (s : St K V n) (hi : Inv c s) (j : Nat) (g : Gen K V)
    (hg : s.gens[j]? = some g) : Inv c { s with gens := s.gens.set j (initOf g).1 } := by
  have hsame : g.cloned = false → (initOf g).1 = g := by
    intro h; unfold initOf; rw [if_neg (by simp [h])]
  have hfix : ∀ x : Gen K V, (initOf x).1.asked = x.asked ∧ (initOf x).1.name = x.name ∧
      (initOf x).1.ext = x.ext ∧ (initOf x).1.defn = x.defn := by
    intro x; unfold initOf; split <;> exact ⟨rfl, rfl, rfl, rfl⟩
  have hlt : j < s.gens.length := by
    rcases Nat.lt_or_ge j s.gens.length with h1 | h1
    · exact h1
    · rw [List.getElem?_eq_none h1] at hg; cases hg
  -- a definition is never changed
  have hkeep : ∀ (i : Nat) (d : Gen K V), s.gens[i]? = some d → d.cloned = false →
      (s.gens.set j (initOf g).1)[i]? = some d := by
    intro i d h1 h2
    rcases Classical.em (j = i) with rfl | hne
    · rw [hg] at h1; cases h1
      rw [hsame h2, List.getElem?_set_self hlt]
    · rw [List.getElem?_set_ne hne]; exact h1
  have hback : ∀ (i : Nat) (x : Gen K V), (s.gens.set j (initOf g).1)[i]? = some x →
      ∃ y : Gen K V, s.gens[i]? = some y ∧ x.asked = y.asked ∧ x.name = y.name ∧ x.ext = y.ext ∧
        x.defn = y.defn ∧ (y.cloned = false → x = y) := by
    intro i x hx
    rcases Classical.em (j = i) with rfl | hne
    · rw [List.getElem?_set_self hlt] at hx
      cases hx
      exact ⟨g, hg, (hfix g).1, (hfix g).2.1, (hfix g).2.2.1, (hfix g).2.2.2, hsame⟩
    · rw [List.getElem?_set_ne hne] at hx
      exact ⟨x, hx, rfl, rfl, rfl, rfl, fun _ => rfl⟩
  refine ⟨?_, ?_, ?_, ?_⟩
  · intro i x hx
    obtain ⟨y, h1, h2, h3, h4, h5, _⟩ := hback i x hx
    obtain ⟨d, hd, hd2⟩ := hi.defn i y h1
    refine ⟨d, ?_, by rw [h2, h3, h4]; exact hd2⟩
    rw [h5]
    exact hkeep _ _ hd hd2.2.1
  · intro i x hx he
    obtain ⟨y, h1, h2, h3, h4, h5, _⟩ := hback i x hx
    rw [h3, h2]
    exact hi.name i y h1 (by rw [← h4]; exact he)
  · intro i x hx he
    obtain ⟨y, h1, h2, h3, h4, h5, h6⟩ := hback i x hx
    have hp := hi.plain i y h1 (by rw [← h5]; exact he)
    rw [h6 hp.2]; exact hp
  · intro h i hm
    obtain ⟨x, h1, h2, h3, h4⟩ := hi.key h i hm
    exact ⟨x, hkeep _ _ h1 (hi.plain i x h1 h3).2, h2, h3, h4⟩

theorem step_inv (c : Cls K V n) (s : St K V n) (o : Op K V) (seen : List (List (K × V)))
    (hi : Inv c s) (hs : Seen s seen) (hc : NoClash c (seen ++ askedIn [o])) :
    Inv c (step c s o) ∧ Seen (step c s o) (seen ++ askedIn [o]) := by
  have hold : ∀ {i : Nat} {x : Gen K V}, s.gens[i]? = some x → i < s.gens.length := by
    intro i x h
    rcases Nat.lt_or_ge i s.gens.length with h1 | h1
    · exact h1
    · rw [List.getElem?_eq_none h1] at h; cases h
  have hseen : ∀ x : Gen K V, ∀ kws, Seen { s with gens := s.gens ++ [x] } (seen ++ kws) := by
    intro x kws h i hm g hg
    obtain ⟨y, hy, _⟩ := hi.key h i hm
    rcases getElem?_snoc _ _ _ _ hg with hg | ⟨rfl, _⟩
    · exact List.mem_append_left _ (hs h i hm g hg)
    · exact absurd (hold hy) (Nat.lt_irrefl _)
  have hrem : ∀ kw, Seen ⟨s.gens ++ [direct c kw s.gens.length],
      (hashOf c kw, s.gens.length) :: s.cache⟩ (seen ++ [kw]) := by
    intro kw h i hm g hg
    rcases List.mem_cons.1 hm with he | hm
    · cases he
      have : g = direct c kw s.gens.length := by simpa using hg.symm
      rw [this]
      exact List.mem_append_right _ List.mem_cons_self
    · exact hseen (direct c kw s.gens.length) [kw] h i hm g hg
  cases o with
  | new kw => exact ⟨inv_direct c s hi kw, hseen _ _⟩
  | create kw =>
    simp only [step]
    cases hf : find (hashOf c kw) s.cache with
    | none => exact ⟨inv_remember c s hi kw, hrem kw⟩
    | some d =>
      simp only
      obtain ⟨g, hg, hk, hself, hext⟩ := hi.key _ _ (find_mem hf)
      have hperm : g.asked.Perm kw :=
        hc _ (List.mem_append_left _ (hs _ _ (find_mem hf) g hg)) _
          (List.mem_append_right _ (by simp [askedIn])) hk
      cases hl : lazyRun (c.prog kw) with
      | none =>
        exact ⟨hi, fun h i hm g hg => List.mem_append_left _ (hs h i hm g hg)⟩
      | some p =>
        simp only
        refine ⟨inv_add c s hi _ ?_ (fun _ => rfl) ?_, hseen _ _⟩
        · obtain ⟨e, he, h2⟩ := hi.defn _ _ hg
          rw [hself, hg] at he; cases he
          exact ⟨g, getElem?_old _ _ _ _ hg, hperm, h2.2.1, h2.2.2.1, h2.2.2.2.1, h2.2.2.2.2.1,
            fun h => (by cases h)⟩
        · intro h
          simp only at h
          exact absurd (hold hg) (by omega)
  | clone kw =>
    simp only [step]
    cases hf : find (hashOf c kw) s.cache with
    | none => exact ⟨inv_remember c s hi kw, hrem kw⟩
    | some d =>
      simp only
      obtain ⟨g, hg, hk, hself, hext⟩ := hi.key _ _ (find_mem hf)
      have hperm : g.asked.Perm kw :=
        hc _ (List.mem_append_left _ (hs _ _ (find_mem hf) g hg)) _
          (List.mem_append_right _ (by simp [askedIn])) hk
      rw [hg]
      simp only
      refine ⟨inv_add c s hi _ ?_ (fun h => (by cases h)) ?_, hseen _ _⟩
      · obtain ⟨e, he, h2⟩ := hi.defn _ _ hg
        rw [hself, hg] at he; cases he
        exact ⟨g, getElem?_old _ _ _ _ hg, hperm, h2.2.1, h2.2.2.1, h2.2.2.2.1, h2.2.2.2.2.1,
          fun _ => rfl⟩
      · intro h
        simp only at h
        exact absurd (hold hg) (by omega)
  | init j =>
    simp only [step]
    cases hg : s.gens[j]? with
    | none => exact ⟨hi, fun h i hm g hg => List.mem_append_left _ (hs h i hm g hg)⟩
    | some g =>
      refine ⟨inv_set c s hi j g hg, ?_⟩
      intro h i hm x hx
      obtain ⟨y, hy, _, hself, _⟩ := hi.key h i hm
      have hcl := (hi.plain i y hy hself).2
      have : x = y := by
        simp only at hx
        rcases Classical.em (j = i) with rfl | hne
        · rw [List.getElem?_set_self (hold hg)] at hx
          rw [hg] at hy; cases hy; cases hx
          unfold initOf; rw [if_neg (by simp [hcl])]
        · rw [List.getElem?_set_ne hne, hy] at hx; cases hx; rfl
      rw [this]
      exact List.mem_append_left _ (hs h i hm y hy)
  | clear =>
    refine ⟨⟨hi.defn, hi.name, hi.plain, ?_⟩, ?_⟩
    · intro h i hm; cases hm
    · intro h i hm; cases hm

theorem askedIn_append (a b : List (Op K V)) : askedIn (a ++ b) = askedIn a ++ askedIn b := by
  induction a with
  | nil => rfl
  | cons o os ih => cases o <;> simp [askedIn, ih]

theorem run_inv (c : Cls K V n) (os : List (Op K V)) (s : St K V n) (seen : List (List (K × V)))
    (hi : Inv c s) (hs : Seen s seen) (hc : NoClash c (seen ++ askedIn os)) :
    Inv c (run c s os) := by
  induction os generalizing s seen with
  | nil => exact hi
  | cons o os ih =>
    have he : askedIn (o :: os) = askedIn [o] ++ askedIn os := by
      rw [← askedIn_append]; rfl
    rw [he] at hc
    obtain ⟨h1, h2⟩ := step_inv c s o seen hi hs (by
      intro a ha b hb
      refine hc a ?_ b ?_
      · rcases List.mem_append.1 ha with h | h
        · exact List.mem_append_left _ h
        · exact List.mem_append_right _ (List.mem_append_left _ h)
      · rcases List.mem_append.1 hb with h | h
        · exact List.mem_append_left _ h
        · exact List.mem_append_right _ (List.mem_append_left _ h))
    exact ih _ _ h1 h2 (by rw [List.append_assoc]; exact hc)

theorem inv_start (c : Cls K V n) : Inv c start := by
  refine ⟨?_, ?_, ?_, ?_⟩ <;> intro i g h <;> simp [start] at h

/-- As long as no two different sets of arguments have the same key, every generator of every
history has a definition that was built, completely, from its arguments.  Missing: the keys of
different arguments are the same far too often, `swapped_wrong`. -/
theorem cache_partial (c : Cls K V n) (os : List (Op K V)) (hc : NoClash c (askedIn os)) (i : Nat)
    (g : Gen K V) (hg : (run c start os).gens[i]? = some g) :
    ∃ d, (run c start os).gens[g.defn]? = some d ∧ d.asked.Perm g.asked ∧ d.cloned = false ∧
      d.ext = false ∧ d.body = c.prog d.asked := by
  have hi := run_inv c os start [] (inv_start c) (fun h i hm => (by cases hm)) (by simpa using hc)
  obtain ⟨d, h1, h2, h3, h4, h5, _, _⟩ := hi.defn i g hg
  exact ⟨d, h1, h2, h3, h4, h5⟩

theorem find_head (h : BitVec n) (i : Nat) (es : List (BitVec n × Nat)) :
    find h ((h, i) :: es) = some i := by simp [find]

/-- Asking again with the same arguments, in any order, whatever happened before, gives a copy. -/
theorem again_copy (c : Cls K V n) (s : St K V n) (kw kw' : List (K × V)) (hp : kw.Perm kw')
    (p : List Act × List Act) (hl : lazyRun (c.prog kw') = some p) :
    ∃ g, (run c s [.create kw, .create kw']).gens =
        (run c s [.create kw]).gens ++ [g] ∧ g.cloned = true ∧ g.asked = kw' := by
  have hh : hashOf c kw' = hashOf c kw := (order_free c kw kw' hp).symm
  simp only [run]
  have : ∃ d, find (hashOf c kw') (step c s (.create kw)).cache = some d := by
    rw [hh]
    simp only [step]
    cases hf : find (hashOf c kw) s.cache with
    | none => exact ⟨_, find_head _ _ _⟩
    | some d =>
      simp only
      split <;> exact ⟨d, hf⟩
  obtain ⟨d, hd⟩ := this
  generalize step c s (.create kw) = t at *
  simp only [step, hd, hl]
  exact ⟨_, rfl, rfl, rfl⟩

/-! ## Initialization -/

theorem filter_map_decl (p : List Act) : (p.filter isDecl).filter (fun x => !isDecl x) = [] := by
  rw [List.filter_filter]
  apply List.filter_eq_nil_iff.2
  intro a _
  cases h : isDecl a <;> simp

theorem record_decl (a : Act) : isDecl (record a) = isDecl a := by
  cases a <;> rfl

/-- The two halves of a copy: its declarations are the constructor's, and what is written down is
the record of all else. -/
theorem lazy_halves (prog : List Act) (p : List Act × List Act) (h : lazyRun prog = some p) :
    p.1 = prog.filter isDecl ∧ p.2 = (prog.filter (fun x => !isDecl x)).map record := by
  induction prog generalizing p with
  | nil => simp [lazyRun] at h; subst h; exact ⟨rfl, rfl⟩
  | cons a as ih =>
    unfold lazyRun at h
    split at h
    · obtain ⟨q, hq, rfl⟩ := Option.map_eq_some_iff.1 h
      obtain ⟨h1, h2⟩ := ih q hq
      rw [List.filter_cons_of_pos (by rfl), List.filter_cons_of_neg (by simp [isDecl])]
      exact ⟨by rw [← h1], h2⟩
    · cases h
    · cases h
    · rename_i x hnd h1 h2
      obtain ⟨q, hq, rfl⟩ := Option.map_eq_some_iff.1 h
      obtain ⟨h1, h2⟩ := ih q hq
      have : isDecl a = false := by
        cases a <;> first | rfl | (exfalso; exact hnd _ rfl)
      simp [this, h1, h2]

theorem lazy_unused (prog : List Act) (p : List Act × List Act) (h : lazyRun prog = some p) :
    ∀ a ∈ prog, (∀ k, a ≠ .block k true) ∧ (∀ es, a ≠ .seq es true) := by
  induction prog generalizing p with
  | nil => intro a ha; cases ha
  | cons b as ih =>
    unfold lazyRun at h
    intro a ha
    split at h
    · obtain ⟨q, hq, rfl⟩ := Option.map_eq_some_iff.1 h
      rcases List.mem_cons.1 ha with rfl | ha
      · exact ⟨fun k hk => (by cases hk), fun k hk => (by cases hk)⟩
      · exact ih q hq a ha
    · cases h
    · cases h
    · rename_i x hnd h1 h2
      obtain ⟨q, hq, rfl⟩ := Option.map_eq_some_iff.1 h
      rcases List.mem_cons.1 ha with rfl | ha
      · exact ⟨fun k hk => h1 _ hk, fun k hk => h2 _ hk⟩
      · exact ih q hq a ha

theorem replay_ok (as : List Act) (h : (replay as).2 = false) : (replay as).1 = as := by
  induction as with
  | nil => rfl
  | cons a as ih =>
    cases a <;> simp only [replay] at h ⊢ <;> first | (rw [ih h]) | (cases h)

theorem replay_raises (as : List Act) :
    (replay as).2 = false ↔ ∀ a ∈ as, ∀ es u, a ≠ .seq es u := by
  induction as with
  | nil => simp [replay]
  | cons a as ih =>
    cases a with
    | seq es u =>
      simp only [replay]
      constructor
      · intro h; cases h
      · intro h; exact absurd rfl (h _ List.mem_cons_self es u)
    | _ =>
      simp only [replay, ih]
      constructor
      · intro h a ha es u
        rcases List.mem_cons.1 ha with rfl | ha
        · intro hx; cases hx
        · exact h a ha es u
      · intro h a ha
        exact h a (List.mem_cons_of_mem _ ha)

theorem map_fix {α : Type} (f : α → α) (l : List α) : l.map f = l ↔ ∀ a ∈ l, f a = a := by
  induction l with
  | nil => simp
  | cons a as ih => simp [ih]

theorem plain_iff (a : Act) (h1 : ∀ k, a ≠ .block k true) (h2 : ∀ es, a ≠ .seq es true) :
    Plain a ↔ (record a = a ∧ ∀ es u, a ≠ .seq es u) := by
  cases a with
  | block k u =>
    cases u
    · simp [Plain, record]
    · exact absurd rfl (h1 k)
  | seq es u => simp [Plain, record]
  | code f cm o =>
    simp only [Plain, record, Act.code.injEq, true_and]
    constructor
    · intro h; exact ⟨h.symm, fun _ _ h => (by cases h)⟩
    · intro h; exact h.1.symm
  | child i g cm py ws =>
    simp only [Plain, record, Act.child.injEq, true_and]
    constructor
    · intro ⟨a, b, c⟩; exact ⟨⟨a.symm, b.symm, c.symm⟩, fun _ _ h => (by cases h)⟩
    · intro ⟨⟨a, b, c⟩, _⟩; exact ⟨a.symm, b.symm, c.symm⟩
  | _ => simp [Plain, record]

/-- Initializing a copy gives what its constructor says exactly when the constructor gives
`add_always` no options and `add_child_generator` no connections or comment, and does not use
`sequential`. -/
theorem init_iff (prog : List Act) (p : List Act × List Act) (h : lazyRun prog = some p) :
    (Same (p.1 ++ (replay p.2).1) prog ∧ (replay p.2).2 = false) ↔ ∀ a ∈ prog, Plain a := by
  obtain ⟨h1, h2⟩ := lazy_halves prog p h
  have hu := lazy_unused prog p h
  have hnd : p.2.filter isDecl = [] := by
    rw [h2]
    apply List.filter_eq_nil_iff.2
    intro a ha
    obtain ⟨b, hb, rfl⟩ := List.mem_map.1 ha
    rw [record_decl]
    simpa using (List.mem_filter.1 hb).2
  have hnn : p.2.filter (fun x => !isDecl x) = p.2 := by
    apply List.filter_eq_self.2
    intro a ha
    have := List.filter_eq_nil_iff.1 hnd a ha
    simpa using this
  constructor
  · intro ⟨⟨_, hs⟩, hr⟩ a ha
    rw [replay_ok _ hr, List.filter_append, hnn, h1, filter_map_decl, List.nil_append, h2,
      map_fix] at hs
    have hr := (replay_raises _).1 hr
    rw [h2] at hr
    cases hd : isDecl a with
    | true => cases a <;> simp [isDecl] at hd <;> trivial
    | false =>
      have hm : a ∈ prog.filter (fun x => !isDecl x) := List.mem_filter.2 ⟨ha, by simp [hd]⟩
      refine (plain_iff a (hu a ha).1 (hu a ha).2).2 ⟨hs a hm, ?_⟩
      intro es u he
      have := hr (record a) (List.mem_map_of_mem hm)
      rw [he] at this
      exact this es false rfl
  · intro hp
    have hfix : ∀ a ∈ prog.filter (fun x => !isDecl x), record a = a := fun a ha =>
      ((plain_iff a (hu a (List.mem_filter.1 ha).1).1 (hu a (List.mem_filter.1 ha).1).2).1
        (hp a (List.mem_filter.1 ha).1)).1
    have hr : (replay p.2).2 = false := by
      rw [replay_raises, h2, (map_fix _ _).2 hfix]
      intro a ha es u he
      have := hp a (List.mem_filter.1 ha).1
      rw [he] at this
      exact this
    refine ⟨⟨?_, ?_⟩, hr⟩
    · rw [replay_ok _ hr, List.filter_append, hnd, h1, List.append_nil, List.filter_filter]
      simp
    · rw [replay_ok _ hr, List.filter_append, hnn, h1, filter_map_decl, List.nil_append, h2,
        (map_fix _ _).2 hfix]

/-- The same for the object: `initialize_clone` on a fresh copy ... -/
theorem init_body_partial (prog : List Act) (p : List Act × List Act) (h : lazyRun prog = some p)
    (hp : ∀ a ∈ prog, Plain a) (g : Gen K V) (hc : g.cloned = true) (hb : g.body = p.1)
    (hq : g.pending = p.2) :
    Same (initOf g).1.body prog ∧ (initOf g).2 = false ∧ (initOf g).1.cloned = false ∧
      (initOf g).1.pending = [] := by
  obtain ⟨h1, h2⟩ := (init_iff prog p h).2 hp
  simp [initOf, hc, hb, hq, h2, h1]

/-- ... and doing it again changes nothing. -/
theorem init_again (g : Gen K V) : initOf (initOf g).1 = ((initOf g).1, false) := by
  have : (initOf g).1.cloned = false := by
    unfold initOf
    split
    · rfl
    · rename_i h; simpa using h
  unfold initOf at this ⊢
  rw [if_neg (by simp [this])]

/-! ## The text -/

theorem emitted_first (gens : List (Gen K V)) (order : List Nat) (nm : String) (m : Gen K V)
    (h : emitted gens order nm = some m) :
    ∃ pre j post, order = pre ++ j :: post ∧ gens[j]? = some m ∧ m.name = nm ∧ m.ext = false ∧
      ∀ i ∈ pre, ∀ g, gens[i]? = some g → ¬ (g.name = nm ∧ g.ext = false) := by
  induction order with
  | nil => simp [emitted] at h
  | cons i is ih =>
    unfold emitted at h
    cases hg : gens[i]? with
    | none =>
      rw [hg] at h
      obtain ⟨pre, j, post, h1, h2, h3, h4, h5⟩ := ih h
      refine ⟨i :: pre, j, post, by rw [h1]; rfl, h2, h3, h4, ?_⟩
      intro k hk g hkg
      rcases List.mem_cons.1 hk with rfl | hk
      · rw [hg] at hkg; cases hkg
      · exact h5 k hk g hkg
    | some x =>
      rw [hg] at h
      simp only at h
      split at h
      · rename_i hx
        cases h
        exact ⟨[], i, is, rfl, hg, hx.1, hx.2, fun k hk => (by cases hk)⟩
      · rename_i hx
        obtain ⟨pre, j, post, h1, h2, h3, h4, h5⟩ := ih h
        refine ⟨i :: pre, j, post, by rw [h1]; rfl, h2, h3, h4, ?_⟩
        intro k hk g hkg
        rcases List.mem_cons.1 hk with rfl | hk
        · rw [hg] at hkg; cases hkg; exact hx
        · exact h5 k hk g hkg

theorem emitted_some (gens : List (Gen K V)) (order : List Nat) (nm : String) (i : Nat) (g : Gen K V)
    (hi : i ∈ order) (hg : gens[i]? = some g) (hn : g.name = nm) (he : g.ext = false) :
    ∃ m, emitted gens order nm = some m := by
  induction order with
  | nil => cases hi
  | cons k ks ih =>
    unfold emitted
    rcases List.mem_cons.1 hi with rfl | hk
    · rw [hg]; simp only; rw [if_pos ⟨hn, he⟩]; exact ⟨_, rfl⟩
    · cases hx : gens[k]? with
      | none => exact ih hk
      | some x =>
        simp only
        split
        · exact ⟨_, rfl⟩
        · exact ih hk

/-- When no two different sets of arguments have the same key, different arguments give different
module names, no copy in the hierarchy has been initialized and the definition of every copy in the
hierarchy comes before it in the hierarchy, every instance's module is written out with what the
constructor says.  Missing: all these conditions, `uninitialised_wrong`, `clone_lost`. -/
theorem text_partial (c : Cls K V n) (os : List (Op K V)) (order : List Nat)
    (hc : NoClash c (askedIn os))
    (hname : ∀ a ∈ (run c start os).gens, ∀ b ∈ (run c start os).gens,
      (c.nameOf a.asked = c.nameOf b.asked ↔ a.asked.Perm b.asked))
    (hprog : ∀ a b, a.Perm b → c.prog a = c.prog b)
    (horder : ∀ pre i post, order = pre ++ i :: post → ∀ g, (run c start os).gens[i]? = some g →
      g.defn = i ∨ (g.cloned = true ∧ g.defn ∈ pre))
    (i : Nat) (g : Gen K V) (him : i ∈ order) (hg : (run c start os).gens[i]? = some g) :
    ∃ m, emitted (run c start os).gens order g.name = some m ∧ m.body = c.prog g.asked := by
  have hi := run_inv c os start [] (inv_start c) (fun h i hm => (by cases hm)) (by simpa using hc)
  have hnm : ∀ (j : Nat) (x : Gen K V), (run c start os).gens[j]? = some x → x.name = c.nameOf x.asked := by
    intro j x hx
    cases he : x.ext with
    | false => exact hi.name j x hx he
    | true =>
      obtain ⟨e, hle, hep, _, _, _, hen, hee⟩ := hi.defn j x hx
      rw [hee he, hen]; exact (hname _ (List.mem_of_getElem? hle) _ (List.mem_of_getElem? hx)).2 hep
  -- the definition of the instance is in the hierarchy
  obtain ⟨d, hd, hdp, hdc, hde, _, _, _⟩ := hi.defn i g hg
  have hdm : g.defn ∈ order := by
    obtain ⟨pre, post, hsplit⟩ := List.append_of_mem him
    rcases horder pre i post hsplit g hg with h | ⟨_, h⟩
    · rw [h]; exact him
    · rw [hsplit]; exact List.mem_append_left _ h
  have hdn : d.name = g.name := by
    rw [hnm _ _ hd, hnm _ _ hg]
    exact (hname _ (List.mem_of_getElem? hd) _ (List.mem_of_getElem? hg)).2 hdp
  obtain ⟨m, hm⟩ := emitted_some _ order g.name g.defn d hdm hd hdn hde
  refine ⟨m, hm, ?_⟩
  obtain ⟨pre, j, post, h1, h2, h3, h4, h5⟩ := emitted_first _ _ _ _ hm
  have hperm : m.asked.Perm g.asked := by
    apply (hname _ (List.mem_of_getElem? h2) _ (List.mem_of_getElem? hg)).1
    rw [← hnm _ _ h2, ← hnm _ _ hg, h3]
  rw [← hprog _ _ hperm]
  rcases horder pre j post h1 m h2 with h | ⟨hcl, h⟩
  · exact (hi.plain j m h2 h).1
  · obtain ⟨e, he, hep, hec, hee, _, _, _⟩ := hi.defn j m h2
    exfalso
    refine h5 _ h e he ⟨?_, hee⟩
    rw [← h3, hnm _ _ he, hnm _ _ h2]
    exact (hname _ (List.mem_of_getElem? he) _ (List.mem_of_getElem? h2)).2 hep

/-! ## Where the claims fail -/

/-- A class with two parameters, as in `def __init__(self, width, depth, is_clone=False)`: two ports
and a wire. -/
def exCls : Cls Bool Nat 80 :=
  { hk := fun b => if b then 7919#80 else 104729#80
    hv := fun v => BitVec.ofNat 80 v
    prog := fun kw => kw.map (fun p => .decl (p.2 + 1)) ++ [.wire 0 1 [] ""]
    nameOf := fun _ => "mod" }

theorem not_CacheClaim : ¬ CacheClaim := by
  intro h
  have h := h Bool Nat 80 exCls [.create [(true, 4), (false, 8)], .create [(true, 8), (false, 4)]] 1
    ⟨[(true, 8), (false, 4)], "mod", false, true, 0, [.decl 9, .decl 5], [.wire 0 1 [] ""]⟩
    rfl
  obtain ⟨d, hd, hp⟩ := h
  have : d = ⟨[(true, 4), (false, 8)], "mod", false, false, 0, [.decl 5, .decl 9, .wire 0 1 [] ""], []⟩ := by
    have he : (run exCls start [.create [(true, 4), (false, 8)], .create [(true, 8), (false, 4)]]).gens[0]? =
      some ⟨[(true, 4), (false, 8)], "mod", false, false, 0, [.decl 5, .decl 9, .wire 0 1 [] ""], []⟩ := by
      rfl
    rw [he] at hd
    exact (Option.some.inj hd).symm
  rw [this] at hp
  revert hp
  decide +kernel

/-- The connections given to `add_child_generator` are lost in an initialized copy ... -/
theorem wiring_lost (inst : String) (g : Nat) (cm : String) (ws : List (String × Nat)) :
    lazyRun [.child inst g cm false ws] = some ([], [.child inst g "" false []]) ∧
    (replay [.child inst g "" false []]) = ([.child inst g "" false []], false) := ⟨rfl, rfl⟩

/-- ... the options of `add_always`, its sensitivity among them, are lost ... -/
theorem options_lost (fn : Nat) (cm : String) (opts : List (String × Nat)) :
    lazyRun [.code fn cm opts] = some ([], [.code fn cm []]) ∧
    replay [.code fn cm []] = ([.code fn cm []], false) := ⟨rfl, rfl⟩

/-- ... and `sequential` makes the initialization raise, whatever comes after it is not done and
cannot be done later. -/
theorem sequential_refused (g : Gen K V) (es : List (Bool × Nat)) (u : Bool) (rest : List Act)
    (hc : g.cloned = true) (hp : g.pending = .seq es u :: rest) :
    (initOf g).2 = true ∧ (initOf g).1.body = g.body ∧ (initOf g).1.cloned = false ∧
      initOf (initOf g).1 = ((initOf g).1, false) := by
  refine ⟨?_, ?_, ?_, init_again g⟩ <;> simp [initOf, hc, hp, replay]

theorem not_InitClaim : ¬ InitClaim := by
  intro h
  have := (h [.child "c" 0 "" false [("in", 1)]] _ (wiring_lost "c" 0 "" [("in", 1)]).1).1.2
  revert this
  decide +kernel

/-- A hierarchy that shows a copy before its definition is written out with an empty module. -/
theorem uninitialised_wrong :
    let s := run exCls start [.create [(true, 4), (false, 4)], .create [(true, 4), (false, 4)]]
    (emitted s.gens [1, 0] "mod").map (·.body) = some [.decl 5, .decl 5] ∧
    exCls.prog [(true, 4), (false, 4)] = [.decl 5, .decl 5, .wire 0 1 [] ""] := by
  decide +kernel

/-- A hierarchy with a `clone()` whose definition is part of another design has no module for it. -/
theorem clone_lost :
    let s := run exCls start [.clone [(true, 4)], .clone [(true, 4)]]
    (s.gens.map (·.ext)) = [false, true] ∧ (emitted s.gens [1] "mod").map (·.body) = none := by
  decide +kernel

theorem not_TextClaim : ¬ TextClaim := by
  intro h
  obtain ⟨m, hm, hs⟩ := h Bool Nat 80 exCls
    [.create [(true, 4), (false, 4)], .create [(true, 4), (false, 4)]] [1, 0] 1
    ⟨[(true, 4), (false, 4)], "mod", false, true, 0, [.decl 5, .decl 5], [.wire 0 1 [] ""]⟩
    (by simp) (by rfl)
  have := uninitialised_wrong.1
  rw [hm] at this
  simp only [Option.map_some, Option.some.injEq] at this
  rw [this] at hs
  have := hs.2
  revert this
  decide +kernel

/-! ## Examples -/

/-- The hypotheses of `cache_partial` hold of a history with copies ... -/
example : NoClash exCls (askedIn [Op.create [(true, 4)], .create [(true, 8)], .create [(true, 4)]]) := by
  intro a ha b hb
  simp only [askedIn, List.mem_cons, List.not_mem_nil, or_false] at ha hb
  rcases ha with rfl | rfl | rfl <;> rcases hb with rfl | rfl | rfl <;> intro h <;>
    first
    | exact List.Perm.refl _
    | (exfalso; revert h; decide +kernel)

example : ((run exCls start [.create [(true, 4)], .create [(true, 8)], .create [(true, 4)]]).gens.map
    fun g => (g.cloned, g.defn)) = [(false, 0), (false, 1), (true, 0)] := by decide +kernel

/-- ... of `init_iff` ... -/
example : lazyRun [.decl 1, .wire 1 2 [] "c", .code 3 "x" [], .decl 4] =
    some ([.decl 1, .decl 4], [.wire 1 2 [] "c", .code 3 "x" []]) := rfl

/-- A class without arguments to speak of. -/
def exOne : Cls Unit Nat 80 :=
  ⟨fun _ => 3#80, fun v => BitVec.ofNat 80 v, fun kw => [.decl kw.length, .stmt 1],
    fun kw => if kw.map (·.2) = [1] then "m" else "o"⟩

def exHist : List (Op Unit Nat) := [.create [((), 1)], .create [((), 2)], .create [((), 1)]]

/-- ... and of `text_partial`: the copy, generator 2, after its definition, generator 0. -/
example : NoClash exOne (askedIn exHist) ∧
    (∀ a ∈ (run exOne start exHist).gens, ∀ b ∈ (run exOne start exHist).gens,
      (exOne.nameOf a.asked = exOne.nameOf b.asked ↔ a.asked.Perm b.asked)) ∧
    (∀ a b, a.Perm b → exOne.prog a = exOne.prog b) ∧
    (∀ pre i post, [0, 1, 2] = pre ++ i :: post → ∀ g, (run exOne start exHist).gens[i]? = some g →
      g.defn = i ∨ (g.cloned = true ∧ g.defn ∈ pre)) := by
  refine ⟨?_, ?_, ?_, ?_⟩
  · intro a ha b hb
    simp only [askedIn, exHist, List.mem_cons, List.not_mem_nil, or_false] at ha hb
    rcases ha with rfl | rfl | rfl <;> rcases hb with rfl | rfl | rfl <;> intro h <;>
      first
      | exact List.Perm.refl _
      | (exfalso; revert h; decide +kernel)
  · decide +kernel
  · intro a b h
    simp [exOne, h.length_eq]
  · intro pre i post h g hg
    match pre, h with
    | [], h =>
      cases h
      have hg : some _ = some g := hg
      cases hg
      exact .inl rfl
    | [x], h =>
      cases h
      have hg : some _ = some g := hg
      cases hg
      exact .inl rfl
    | [x, y], h =>
      cases h
      have hg : some _ = some g := hg
      cases hg
      exact .inr ⟨rfl, List.mem_cons_self⟩
    | x :: y :: z :: w, h => simp at h

end Kratos.Cache
