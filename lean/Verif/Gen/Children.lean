import Verif.Gen.Table
import Verif.Gen.Ctx

/-!
# Child generators (`src/generator.cc`)

Every generator keeps `children_` (instance name → child) and `children_names_` (instance names in
order of insertion); a child knows its `instance_name` and `parent_generator_`.  Comments and debug
information are left out; the disconnection of ports in `remove_child_generator` is left out.
-/

namespace Kratos.Gen

structure Forest where
  inst : Nat → Name
  parent : Nat → Option Nat
  kids : Nat → Map Name Nat
  order : Nat → List Name

/-- `Generator::add_child_generator` (src/generator.cc:402-414): the child's instance name changes
before the duplicate check. -/
def addChild (F : Forest) (p : Nat) (n : Name) (c : Nat) : Forest × Res Unit :=
  let F1 := { F with inst := updN F.inst c n }
  if (F.kids p).has n then (F1, .throw .generator)
  else ({ F1 with kids := updN F.kids p ((F.kids p).emplace n c), parent := updN F.parent c (some p),
                  order := updN F.order p (F.order p ++ [n]) }, .ok ())

/-- `Generator::remove_child_generator` (src/generator.cc:435-470). -/
def removeChild (F : Forest) (p : Nat) (c : Nat) : Forest :=
  if (F.order p).contains (F.inst c) then
    { F with order := updN F.order p ((F.order p).erase (F.inst c)),
             kids := updN F.kids p ((F.kids p).erase (F.inst c)), parent := updN F.parent c none }
  else F

/-- `Generator::rename_child_generator` (src/generator.cc:490-524). -/
def renameChild (F : Forest) (p : Nat) (c : Nat) (new : Name) : Forest × Res Unit :=
  match (F.kids p).find (F.inst c) with
  | none => (F, .throw .generator)
  | some x =>
    if (F.kids p).has new then (F, .throw .generator)
    else
      let F1 := { F with kids := updN F.kids p (((F.kids p).erase (F.inst c)).emplace new x) }
      if (F.order p).contains (F.inst c) then
        ({ F1 with order := updN F.order p ((F.order p).replace (F.inst c) new),
                   inst := updN F.inst c new }, .ok ())
      else (F1, .throw .user)

/-- The Python attribute `generator.instance_name = name` (python/kratos_generator.cc:241-251). -/
def setInstName (F : Forest) (c : Nat) (n : Name) : Forest × Res Unit :=
  match F.parent c with
  | none => ({ F with inst := updN F.inst c n }, .ok ())
  | some p => renameChild F p c n

/-- `Generator::replace` (src/generator.cc:1125-1191), tables only: the new child takes the name,
the old one is removed, the new one is added.  `ok` says whether the port checks pass. -/
def replaceChild (F : Forest) (p : Nat) (n : Name) (new : Nat) (ok : Bool) : Forest × Res Unit :=
  match (F.kids p).find n with
  | none => (F, .throw .generator)
  | some old =>
    let F1 := { F with inst := updN F.inst new n }
    if ok then addChild (removeChild F1 p old) p n new else (F1, .throw .var)

inductive FOp where
  | add (p : Nat) (n : Name) (c : Nat)
  | remove (p c : Nat)
  | rename (p c : Nat) (n : Name)
  | setName (c : Nat) (n : Name)
  | replace (p : Nat) (n : Name) (c : Nat) (ok : Bool)

def fstep (F : Forest) : FOp → Forest
  | .add p n c => (addChild F p n c).1
  | .remove p c => removeChild F p c
  | .rename p c n => (renameChild F p c n).1
  | .setName c n => (setInstName F c n).1
  | .replace p n c ok => (replaceChild F p n c ok).1

/-- `Generator::get_child_generators` (src/generator.cc:472-480): `children_.at` throws on a name
missing from the map. -/
def childrenAux (m : Map Name Nat) : List Name → Res (List Nat)
  | [] => .ok []
  | n :: ns =>
    match m.find n with
    | none => .throw .outOfRange
    | some c => (childrenAux m ns).bind fun cs => .ok (c :: cs)

def Forest.children (F : Forest) (p : Nat) : Res (List Nat) := childrenAux (F.kids p) (F.order p)

/-- Generators that have not been connected yet; `inst` is the constructor's name. -/
def bare (inst : Nat → Name) : Forest := ⟨inst, fun _ => none, fun _ => [], fun _ => []⟩

end Kratos.Gen
