import Verif.Opt.Spec

/-!
# Specification: control paths and executed statements
-/

namespace Kratos.Check
open Kratos.Ir Kratos.Opt

/-- The values a `case` target can take: the enum's values, or every bit pattern. -/
def domain (enumOf : Expr → Option (List Nat)) (tgt : Expr) : List Nat :=
  match enumOf tgt with
  | some vs => vs
  | none => List.range (2 ^ tgt.width)

mutual
/-- `PathS dom s p`: `p` lists the simple statements met on one control path through `s`.
Either branch of an `if` may be taken; a `case` takes any of its items, or none when it has no
default and some value of the target's domain has no label; a loop body is entered once, or
skipped when the loop runs zero times. -/
inductive PathS (dom : Expr → List Nat) : Stmt → List Stmt → Prop
  | leaf {s} : plain s = true → PathS dom s [s]
  | thn {c t e p} : PathB dom t p → PathS dom (.ite c t e) p
  | els {c t e p} : PathB dom e p → PathS dom (.ite c t e) p
  | case {tgt cs p} : PathC dom cs p → PathS dom (.switch tgt cs) p
  | nomatch {tgt cs v} : hasDefault cs = false → v ∈ dom tgt → v ∉ labels tgt.width cs →
      PathS dom (.switch tgt cs) []
  | loop {iv a b s body p} : iterValues a b s ≠ [] → PathB dom body p →
      PathS dom (.for_ iv a b s body) p
  | skip {iv a b s body} : iterValues a b s = [] → PathS dom (.for_ iv a b s body) []
inductive PathB (dom : Expr → List Nat) : Stmts → List Stmt → Prop
  | nil : PathB dom .nil []
  | cons {s ss p q} : PathS dom s p → PathB dom ss q → PathB dom (.cons s ss) (p ++ q)
inductive PathC (dom : Expr → List Nat) : Cases → List Stmt → Prop
  | here {k b cs p} : PathB dom b p → PathC dom (.cons k b cs) p
  | there {k b cs p} : PathC dom cs p → PathC dom (.cons k b cs) p
end

/-- Some statement nested anywhere in the block assigns (a slice of) `v`. -/
def AssignedIn (v : VarId) (body : Stmts) : Prop :=
  ¬ AllB (fun s => ∀ nb l r, s = Stmt.assign nb l r → l.v ≠ v) body

mutual
/-- Some block inside contains a statement that returns on every path and is followed by more
statements. -/
def deadS (dom : Expr → List Nat) : Stmt → Prop
  | .ite _ t e => deadB dom t ∨ deadB dom e
  | .switch _ cs => deadC dom cs
  | .for_ _ _ _ _ b => deadB dom b
  | _ => False
def deadB (dom : Expr → List Nat) : Stmts → Prop
  | .nil => False
  | .cons s ss => deadS dom s ∨
      (ss ≠ .nil ∧ ∀ p, PathS dom s p → ∃ x ∈ p, ∃ e, x = .ret e) ∨ deadB dom ss
def deadC (dom : Expr → List Nat) : Cases → Prop
  | .nil => False
  | .cons _ b cs => deadB dom b ∨ deadC dom cs
end

/-- `case` labels are pairwise different values of the target's domain (enforced for enums by
the enum constants, for plain variables by merging equal labels); an enum has a value. -/
def SwitchOk (dom : Expr → List Nat) : Stmt → Prop
  | .switch tgt cs => (labels tgt.width cs).Nodup ∧ (∀ v ∈ labels tgt.width cs, v ∈ dom tgt) ∧
      (dom tgt).Nodup ∧ dom tgt ≠ []
  | _ => True

/-- Loops run at least once. -/
def LoopOk : Stmt → Prop
  | .for_ _ a b s _ => iterValues a b s ≠ []
  | _ => True

/-- `return` and `break` do not occur. -/
def NoJump : Stmt → Prop
  | .ret _ | .brk => False
  | _ => True

def NoBreak : Stmt → Prop
  | .brk => False
  | _ => True

/-- Executed statements of the remaining loop iterations. -/
def traceL (tr : St → List Stmt) (ex : St → St) (iv : VarId) : List Int → St → List Stmt
  | [], _ => []
  | i :: is, st => if st.ctl = .run then
      tr (setIter iv i st) ++ traceL tr ex iv is (guardRun st (ex (setIter iv i st))) else []

mutual
/-- The simple statements executed when `s` runs from `st` (same rules as `Stmt.exec`). -/
def traceS (ι : Nat → St → St) : Stmt → St → List Stmt
  | .ite c t e, st => if c.eval st.val ≠ 0 then traceB ι t st else traceB ι e st
  | .switch tgt cs, st => traceC ι cs tgt.width (tgt.eval st.val) (fun _ => []) st
  | .for_ iv a b s body, st => traceL (fun st => traceB ι body st) (fun st => body.exec ι st) iv
      (iterValues a b s) st
  | s, _ => [s]
def traceB (ι : Nat → St → St) : Stmts → St → List Stmt
  | .nil, _ => []
  | .cons s ss, st =>
      (if st.ctl = .run then traceS ι s st else []) ++ traceB ι ss (s.exec ι st)
def traceC (ι : Nat → St → St) : Cases → Nat → Nat → (St → List Stmt) → St → List Stmt
  | .nil, _, _, k, st => k st
  | .cons none b cs, w, v, _, st => traceC ι cs w v (fun st => traceB ι b st) st
  | .cons (some c) b cs, w, v, k, st =>
      if pattern w c = v then traceB ι b st else traceC ι cs w v k st
end

end Kratos.Check
