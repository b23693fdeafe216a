import Verif.Gen.Table

/-!
# The context's index of generators and `uniquify_generators`
(`src/context.cc`, `src/pass.cc`)

Generators are numbered.  `std::set<std::shared_ptr<Generator>>` is a duplicate-free list; its
iteration order (by address) and that of the unordered map of names are arbitrary: `uniquify` takes
the order of names and a reordering of every set as arguments.

One context is modelled; generators of another context (`change_generator_name` refuses them) and
test benches (indexed like generators) are left out.
-/

namespace Kratos.Gen

structure Ctx where
  modules : Map Name (List Nat)
  name : Nat → Name
  ext : Nat → Bool
  cloneOf : Nat → Option Nat
  next : Nat

def updN {α : Type} (f : Nat → α) (i : Nat) (a : α) : Nat → α := fun j => if j = i then a else f j

/-- `Context::get_generators_by_name` (src/context.cc:98-102). -/
def Ctx.lookup (c : Ctx) (n : Name) : List Nat := (c.modules.find n).getD []

/-- `std::set::emplace`. -/
def insertSet (l : List Nat) (g : Nat) : List Nat := if l.contains g then l else l ++ [g]

/-- `modules_[name].emplace(p)`. -/
def emplaceMod (m : Map Name (List Nat)) (n : Name) (g : Nat) : Map Name (List Nat) :=
  m.put n (insertSet ((m.find n).getD []) g)

/-- `Context::generator` (src/context.cc:14-18); the constructor refuses keywords
(src/generator.cc:67-72). -/
def create (kw : Name → Bool) (c : Ctx) (n : Name) : Ctx × Res Nat :=
  if kw n then (c, .throw .user)
  else ({ c with modules := emplaceMod c.modules n c.next, name := updN c.name c.next n,
                 ext := updN c.ext c.next false, cloneOf := updN c.cloneOf c.next none,
                 next := c.next + 1 }, .ok c.next)

/-- `Context::empty_generator` (src/context.cc:20-24): named "", not in the index. -/
def createEmpty (c : Ctx) : Ctx :=
  { c with name := updN c.name c.next [], ext := updN c.ext c.next false,
           cloneOf := updN c.cloneOf c.next none, next := c.next + 1 }

/-- `Generator::clone` (src/generator.cc:1021-1049): a new generator of the same name, external,
pointing back at its definition; it is not put in the index, and the definition's set of clones
(`get_clones()`) is never filled. -/
def clone (c : Ctx) (g : Nat) : Ctx :=
  { c with name := updN c.name c.next (c.name g), ext := updN c.ext c.next true,
           cloneOf := updN c.cloneOf c.next (some g), next := c.next + 1 }

/-- `Context::add` (src/context.cc:32-34). -/
def add (c : Ctx) (g : Nat) : Ctx := { c with modules := emplaceMod c.modules (c.name g) g }

/-- `Context::remove` (src/context.cc:36-45). -/
def remove (c : Ctx) (g : Nat) : Ctx :=
  match c.modules.find (c.name g) with
  | none => c
  | some l => { c with modules := c.modules.put (c.name g) (l.erase g) }

/-- `Context::change_generator_name` (src/context.cc:63-92).  `get_clones()` is always empty (see
`clone`), so the last loop changes nothing. -/
def changeName (c : Ctx) (g : Nat) (new : Name) : Ctx × Res Unit :=
  if new.isEmpty || (c.name g).isEmpty then ({ c with name := updN c.name g new }, .ok ())
  else
    match c.modules.find (c.name g) with
    | none => (c, .throw .user)
    | some l =>
      if l.contains g then
        ({ c with modules := emplaceMod (c.modules.put (c.name g) (l.erase g)) new g,
                  name := updN c.name g new }, .ok ())
      else (c, .throw .user)

inductive COp where
  | create (n : Name)
  | createEmpty
  | clone (g : Nat)
  | add (g : Nat)
  | remove (g : Nat)
  | rename (g : Nat) (n : Name)
  | setExternal (g : Nat) (b : Bool)
  | clear

/-- `Context::clear` (src/context.cc:154-160) empties the index. -/
def cstep (kw : Name → Bool) (c : Ctx) : COp → Ctx
  | .create n => (create kw c n).1
  | .createEmpty => createEmpty c
  | .clone g => clone c g
  | .add g => add c g
  | .remove g => remove c g
  | .rename g n => (changeName c g n).1
  | .setExternal g b => { c with ext := updN c.ext g b }
  | .clear => { c with modules := [] }

def emptyCtx : Ctx := ⟨[], fun _ => [], fun _ => false, fun _ => none, 0⟩

/-! ## `uniquify_generators` -/

/-- `fmt::format("{0}_unq{1}", name, count)`. -/
def unqName (n : Name) (k : Nat) : Name := n ++ '_' :: 'u' :: 'n' :: 'q' :: dec k

/-- One step of the reordering loop (src/pass.cc:51-58).  The part of the vector already seen is
`T ++ U` with `head = T.length`; a tracked element is swapped with the first element of `U`. -/
def reorderStep (tracked : Nat → Bool) (s : List Nat × List Nat) (x : Nat) : List Nat × List Nat :=
  if tracked x then
    match s.2 with
    | [] => (s.1 ++ [x], [])
    | u :: us => (s.1 ++ [x], us ++ [u])
  else (s.1, s.2 ++ [x])

def reorder (tracked : Nat → Bool) (l : List Nat) : List Nat :=
  let s := l.foldl (reorderStep tracked) ([], [])
  s.1 ++ s.2

/-- The reordering happens only when the context tracks generated modules (src/pass.cc:49-59). -/
def arrange (tracked : Option (Nat → Bool)) (l : List Nat) : List Nat :=
  match tracked with
  | some t => reorder t l
  | none => l

/-- The loop over the generators of one name (src/pass.cc:60-89): `nm` is `name_map` (hash → first
generator seen with it), `news` is `new_names`. -/
def uniqInsts (hash : Map Nat Nat) (n : Name) :
    List Nat → (nm : Map Nat Nat) → (news : List Name) → Ctx → Res Ctx
  | [], _, _, c => .ok c
  | g :: gs, nm, news, c =>
    match hash.find g with
    | none => uniqInsts hash n gs nm news c
    | some h =>
      match nm.find h with
      | none =>
        if news.isEmpty then uniqInsts hash n gs (nm.emplace h g) [c.name g] c
        else
          (freeFrom c.modules.has (unqName n) (2 ^ 32) ((news.length - 1) % 2 ^ 32)).bind fun new =>
            (changeName c g new).2.bind fun _ =>
              uniqInsts hash n gs (nm.emplace h g) (insertPort news new) (changeName c g new).1
      | some r =>
        (changeName c g (c.name r)).2.bind fun _ =>
          uniqInsts hash n gs nm news (changeName c g (c.name r)).1

/-- The body of the loop over names (src/pass.cc:36-90). -/
def uniqName (hash : Map Nat Nat) (tracked : Option (Nat → Bool)) (ord : List Nat → List Nat)
    (c : Ctx) (n : Name) : Res Ctx :=
  let insts := (ord (c.lookup n)).filter fun g => !c.ext g
  if insts.length = 1 then .ok c
  else uniqInsts hash n (arrange tracked insts) [] [] c

/-- `uniquify_generators` (src/pass.cc:32-91); `names` is the snapshot of all names. -/
def uniquify (hash : Map Nat Nat) (tracked : Option (Nat → Bool)) (ord : List Nat → List Nat) :
    List Name → Ctx → Res Ctx
  | [], c => .ok c
  | n :: ns, c => (uniqName hash tracked ord c n).bind fun c' => uniquify hash tracked ord ns c'

end Kratos.Gen
