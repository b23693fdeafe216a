import Verif.Ir.Lemmas
import Verif.Ir.Reads
import Verif.Print.ForText
import Verif.Base

/-!
# The text of statements (property C48) and of assertions (property C70)

Models `SystemVerilogCodeGen::stmt_code` for assignments, `if`, `case`, `for`, `return`, `break` and assertions
(src/codegen.cc:482-499, 626-640, 710-764, 781-808, 890-972, 1001-1003) as a list of tokens.

Simplified: expressions, targets and case labels are one token each (their text is the subject of C06 and C07); white space, comments and
block labels are left out; any other statement is one opaque token and a semicolon.
-/

namespace Kratos.StmtText

open Kratos.Ir
open Kratos.ForText (Header Decl header)

/-! ### Model -/

/-- Tokens of the emitted text. -/
inductive Tok where
  | if_ | else_ | begin_ | end_ | unique_ | case_ | endcase | default_ | for_ | return_ | break_ | assert_ | property_
  | int_ | unsigned_ | genvar_
  | lp | rp | colon | semi | eq | leq | lt | gt | pluseq | minuseq
  | target (l : LVal)
  | expr (e : Expr)
  | label (c : Int)
  | num (i : Int)
  | id (v : VarId)
  | other (n : Nat)
  | assign_ | always_ff | always_comb | always_ | always_latch | initial_ | final_ | at_ | posedge_ | negedge_ | comma
  | hash (n : Nat)
  | name (n : Nat)
  deriving DecidableEq, Repr

/-- Statements that are printed after `else` without a block, src/codegen.cc:796-799. -/
def short : Stmt → Bool
  | .assign _ _ _ => true
  | .ite _ _ _ => true
  | .ret _ => true
  | _ => false

/-- Statements that are printed after a case label without a block, src/codegen.cc:916-917. -/
def isAssign : Stmt → Bool
  | .assign _ _ _ => true
  | _ => false

/-- src/codegen.cc:949-967. -/
def declToks : Decl → List Tok
  | .int => [.int_]
  | .unsigned => [.int_, .unsigned_]
  | .genvar => [.genvar_]

def headerToks (h : Header) (iv : VarId) : List Tok :=
  .for_ :: .lp :: declToks h.decl ++ [.id iv, .eq, .num h.start, .semi, .id iv, if h.lt then .lt else .gt, .num h.stop, .semi, .id iv,
    if h.plus then .pluseq else .minuseq, .num h.amount, .rp]

/-- Insert by the value of the label. -/
def insertItem {α : Type} (x : Int × α) : List (Int × α) → List (Int × α)
  | [] => [x]
  | y :: ys => if x.1 < y.1 then x :: y :: ys else y :: insertItem x ys

/-- The labelled items in the order of their values.  The labels of a switch statement are distinct (src/stmt.cc:555-560), so that every
sorting algorithm gives this list. -/
def sortItems {α : Type} (l : List (Option Int × α)) : List (Int × α) :=
  l.foldr (fun p acc => match p.1 with | some c => insertItem (c, p.2) acc | none => acc) []

def theDefault {α : Type} (d : α) (l : List (Option Int × α)) : α :=
  match l.find? (fun p => p.1.isNone) with
  | some p => p.2
  | none => d

/-- The items as they are printed, src/codegen.cc:894-905: sorted by value, then the default, present or not. -/
def arrange {α : Type} (d : α) (l : List (Option Int × α)) : List (Option Int × α) :=
  (sortItems l).map (fun p => (some p.1, p.2)) ++ [(none, theDefault d l)]

def itemToks (p : Option Int × List Tok) : List Tok :=
  (match p.1 with | some c => .label c | none => .default_) :: .colon :: p.2

mutual
/-- `dispatch_node`, src/codegen.cc:424-480; `u`: the option `unique_case`. -/
def Stmt.code (u : Bool) : Stmt → Res (List Tok)
  | .assign nb l r => .ok [.target l, if nb then .leq else .eq, .expr r, .semi]
  | .ite c t e => (Stmts.code u t).bind fun tt => (Stmts.elseCode u e).map fun et =>
      .if_ :: .lp :: .expr c :: .rp :: .begin_ :: tt ++ .end_ :: et
  | .switch tgt cs => (Cases.codes u cs).map fun items =>
      (if u then [.unique_] else []) ++ .case_ :: .lp :: .expr tgt :: .rp :: (arrange [.begin_, .end_] items).flatMap itemToks ++ [.endcase]
  | .for_ iv a b s body => (Stmts.code u body).map fun bt => headerToks (header false a b s) iv ++ .begin_ :: bt ++ [.end_]
  | .ret e => .ok [.return_, .expr e, .semi]
  | .brk => .ok [.break_, .semi]
  | .other n => .ok [.other n, .semi]
/-- The contents of a block, between `begin` and `end`, src/codegen.cc:626-640. -/
def Stmts.code (u : Bool) : Stmts → Res (List Tok)
  | .nil => .ok []
  | .cons s ss => (Stmt.code u s).bind fun a => (Stmts.code u ss).map fun b => a ++ b
/-- The else part, src/codegen.cc:790-807: nothing, one short statement, or a block. -/
def Stmts.elseCode (u : Bool) : Stmts → Res (List Tok)
  | .nil => .ok []
  | .cons s ss => (Stmt.code u s).bind fun a => (Stmts.code u ss).map fun b =>
      if ss.isEmpty && short s then .else_ :: a else .else_ :: .begin_ :: a ++ b ++ [.end_]
/-- The body of a case item, src/codegen.cc:907-925: one assignment, or a block. -/
def Stmts.itemCode (u : Bool) : Stmts → Res (List Tok)
  | .nil => .ok [.begin_, .end_]
  | .cons s ss => (Stmt.code u s).bind fun a => (Stmts.code u ss).map fun b =>
      if ss.isEmpty && isAssign s then a else .begin_ :: a ++ b ++ [.end_]
/-- The bodies of the items; an item with a label must not be empty, src/codegen.cc:907-911. -/
def Cases.codes (u : Bool) : Cases → Res (List (Option Int × List Tok))
  | .nil => .ok []
  | .cons k b cs => if k.isSome && b.isEmpty then .throw .var
      else (Stmts.itemCode u b).bind fun t => (Cases.codes u cs).map fun l => (k, t) :: l
end

/-! ### Specification: reading SystemVerilog statements (IEEE 1800-2017 Annex A.6.4-A.6.8, §12.4, §12.5, §12.7) -/

mutual
/-- Parsed statements. -/
inductive V where
  | assign (nb : Bool) (l : LVal) (r : Expr)
  | if_ (c : Expr) (t : V)
  | ifElse (c : Expr) (t e : V)
  | block (vs : Vs)
  | case_ (tgt : Expr) (items : Vc)
  | for_ (h : Header) (iv : VarId) (body : V)
  | ret (e : Expr)
  | brk
  | other (n : Nat)
inductive Vs where
  | nil
  | cons (v : V) (vs : Vs)
inductive Vc where
  | nil
  | cons (k : Option Int) (v : V) (vc : Vc)
end

/-- `int`, `int unsigned` or `genvar`. -/
def readDecl : List Tok → Option (Decl × List Tok)
  | .int_ :: .unsigned_ :: r => some (.unsigned, r)
  | .int_ :: r => some (.int, r)
  | .genvar_ :: r => some (.genvar, r)
  | _ => none

def readCmp : Tok → Option Bool
  | .lt => some true
  | .gt => some false
  | _ => none

def readStep : Tok → Option Bool
  | .pluseq => some true
  | .minuseq => some false
  | _ => none

/-- The header of a loop after `for (`. -/
def readHeader (ts : List Tok) : Option (Header × VarId × List Tok) :=
  match readDecl ts with
  | some (d, .id i :: .eq :: .num a :: .semi :: .id j :: c :: .num b :: .semi :: .id k :: s :: .num m :: .rp :: r) =>
    match readCmp c, readStep s with
    | some c, some s => if i = j ∧ i = k then some (⟨d, a, c, b, s, m⟩, i, r) else none
    | _, _ => none
  | _ => none

mutual
/-- Recursive descent, `n` bounds the depth.  An `else` belongs to the closest `if` (§12.4). -/
def stmt : Nat → List Tok → Option (V × List Tok)
  | 0, _ => none
  | n + 1, ts =>
    match ts with
    | .target l :: .eq :: .expr e :: .semi :: r => some (.assign false l e, r)
    | .target l :: .leq :: .expr e :: .semi :: r => some (.assign true l e, r)
    | .if_ :: .lp :: .expr c :: .rp :: r => (stmt n r).bind fun p => ifRest n c p
    | .begin_ :: r => (stmts n r).map fun p => (.block p.1, p.2)
    | .unique_ :: .case_ :: .lp :: .expr c :: .rp :: r => (items n r).map fun p => (.case_ c p.1, p.2)
    | .case_ :: .lp :: .expr c :: .rp :: r => (items n r).map fun p => (.case_ c p.1, p.2)
    | .for_ :: .lp :: r => (readHeader r).bind fun h => (stmt n h.2.2).map fun p => (.for_ h.1 h.2.1 p.1, p.2)
    | .return_ :: .expr e :: .semi :: r => some (.ret e, r)
    | .break_ :: .semi :: r => some (.brk, r)
    | .other k :: .semi :: r => some (.other k, r)
    | _ => none
def ifRest : Nat → Expr → V × List Tok → Option (V × List Tok)
  | 0, _, _ => none
  | n + 1, c, p =>
    match p.2 with
    | .else_ :: r => (stmt n r).map fun q => (.ifElse c p.1 q.1, q.2)
    | _ => some (.if_ c p.1, p.2)
/-- Statements up to `end`. -/
def stmts : Nat → List Tok → Option (Vs × List Tok)
  | 0, _ => none
  | n + 1, ts =>
    match ts with
    | .end_ :: r => some (.nil, r)
    | _ => (stmt n ts).bind fun p => (stmts n p.2).map fun q => (.cons p.1 q.1, q.2)
/-- Case items up to `endcase`. -/
def items : Nat → List Tok → Option (Vc × List Tok)
  | 0, _ => none
  | n + 1, ts =>
    match ts with
    | .endcase :: r => some (.nil, r)
    | .label c :: .colon :: r => (stmt n r).bind fun p => (items n p.2).map fun q => (.cons (some c) p.1 q.1, q.2)
    | .default_ :: .colon :: r => (stmt n r).bind fun p => (items n p.2).map fun q => (.cons none p.1 q.1, q.2)
    | _ => none
end

/-- The text `ts` in front of `rest` is read as `v`, whatever the bound, if it is large enough. -/
def Reads (ts rest : List Tok) (v : V) : Prop := ∃ N, ∀ n, N ≤ n → stmt n (ts ++ rest) = some (v, rest)

/-! ### Specification: running them -/

/-- The tests and updates of a loop; `n` bounds the number of tests. -/
def runLoop (h : Header) (iv : VarId) (body : St → Option St) : Nat → St → Option St
  | 0, _ => none
  | n + 1, st =>
    if st.ctl = .run then
      if h.holds (st.val iv) then
        (body st).bind fun st' => runLoop h iv body n
          (if st'.ctl = .run then { st' with val := fun v => if v = iv then h.next (st'.val iv) else st'.val v } else st')
      else some st
    else some st

mutual
def V.exec (ι : Nat → St → St) (n : Nat) : V → St → Option St
  | .assign nb l r, st => some (guardRun st
      (if nb then { st with nba := st.nba ++ [(l, r.eval st.val)] } else { st with val := st.val.write l (r.eval st.val) }))
  | .if_ c t, st => if st.ctl = .run then (if c.eval st.val ≠ 0 then t.exec ι n st else some st) else some st
  | .ifElse c t e, st => if st.ctl = .run then (if c.eval st.val ≠ 0 then t.exec ι n st else e.exec ι n st) else some st
  | .block vs, st => vs.exec ι n st
  | .case_ tgt vc, st => if st.ctl = .run then vc.exec ι n tgt.width (tgt.eval st.val) some st else some st
  | .for_ h iv body, st =>
      if st.ctl = .run then
        (runLoop h iv (fun st => body.exec ι n st) n { st with val := fun v => if v = iv then pattern 32 h.start else st.val v }).map (endLoop iv st)
      else some st
  | .ret e, st => some (guardRun st { st with ctl := .ret (e.eval st.val) })
  | .brk, st => some (guardRun st { st with ctl := .brk })
  | .other k, st => some (guardRun st (ι k st))
def Vs.exec (ι : Nat → St → St) (n : Nat) : Vs → St → Option St
  | .nil, st => some st
  | .cons v vs, st => (v.exec ι n st).bind fun st => vs.exec ι n st
/-- The first item whose label matches; the default if none does. -/
def Vc.exec (ι : Nat → St → St) (n : Nat) : Vc → Nat → Nat → (St → Option St) → St → Option St
  | .nil, _, _, k, st => k st
  | .cons none v vc, w, x, _, st => vc.exec ι n w x (fun st => v.exec ι n st) st
  | .cons (some c) v vc, w, x, k, st => if pattern w c = x then v.exec ι n st else vc.exec ι n w x k st
end

/-- From `st` the statement ends in `st'`. -/
def V.Ends (ι : Nat → St → St) (v : V) (st st' : St) : Prop := ∃ N, ∀ n, N ≤ n → v.exec ι n st = some st'

/-- Full claim (C48): what is printed reads back as one statement with the same behaviour. -/
def TextClaim : Prop := ∀ (u : Bool) (s : Stmt) (ts : List Tok), Stmt.code u s = .ok ts → ∃ v, Reads ts [] v ∧ ∀ ι st, v.Ends ι st (s.exec ι st)

mutual
/-- The statement assigns variable `iv`, outside of a loop that has it as its own variable. -/
def Stmt.sets (iv : VarId) : Stmt → Bool
  | .assign _ l _ => l.v == iv
  | .ite _ t e => Stmts.sets iv t || Stmts.sets iv e
  | .switch _ cs => Cases.sets iv cs
  | .for_ jv _ _ _ body => jv != iv && Stmts.sets iv body
  | _ => false
def Stmts.sets (iv : VarId) : Stmts → Bool
  | .nil => false
  | .cons s ss => Stmt.sets iv s || Stmts.sets iv ss
def Cases.sets (iv : VarId) : Cases → Bool
  | .nil => false
  | .cons _ b cs => Stmts.sets iv b || Cases.sets iv cs
end

def keys : Cases → List (Option Int)
  | .nil => []
  | .cons k _ cs => k :: keys cs

mutual
/-- Loops are good in the sense of C49 and do not assign their variable; the labels of a switch are different bit patterns, with at most one
default. -/
def Stmt.Ok : Stmt → Prop
  | .ite _ t e => Stmts.Ok t ∧ Stmts.Ok e
  | .switch tgt cs => ((keys cs).map (Option.map (pattern tgt.width))).Nodup ∧ Cases.Ok cs
  | .for_ iv a b s body => ForText.Fits false a b s ∧ ForText.Good false a b s ∧ Stmts.sets iv body = false ∧ Stmts.Ok body
  | _ => True
def Stmts.Ok : Stmts → Prop
  | .nil => True
  | .cons s ss => Stmt.Ok s ∧ Stmts.Ok ss
def Cases.Ok : Cases → Prop
  | .nil => True
  | .cons _ b cs => Stmts.Ok b ∧ Cases.Ok cs
end

mutual
/-- `iv` is the variable of a loop in the statement. -/
def Stmt.loops (iv : VarId) : Stmt → Bool
  | .ite _ t e => Stmts.loops iv t || Stmts.loops iv e
  | .switch _ cs => Cases.loops iv cs
  | .for_ jv _ _ _ body => jv == iv || Stmts.loops iv body
  | _ => false
def Stmts.loops (iv : VarId) : Stmts → Bool
  | .nil => false
  | .cons s ss => Stmt.loops iv s || Stmts.loops iv ss
def Cases.loops (iv : VarId) : Cases → Bool
  | .nil => false
  | .cons _ b cs => Stmts.loops iv b || Cases.loops iv cs
end

/-! ### Proof: reading -/

def Vc.ofList : List (Option Int × V) → Vc
  | [] => .nil
  | (k, v) :: l => .cons k v (ofList l)

def Vs.ofList : List V → Vs
  | [] => .nil
  | v :: l => .cons v (ofList l)

mutual
/-- What the text of a statement is read as. -/
def Stmt.toV : Stmt → V
  | .assign nb l r => .assign nb l r
  | .ite c t e => match e with
    | .nil => .if_ c (.block (Stmts.toVs t))
    | .cons s ss => .ifElse c (.block (Stmts.toVs t)) (if ss.isEmpty && short s then Stmt.toV s else .block (.cons (Stmt.toV s) (Stmts.toVs ss)))
  | .switch tgt cs => .case_ tgt (Vc.ofList (arrange (.block .nil) (Cases.toVc cs)))
  | .for_ iv a b s body => .for_ (header false a b s) iv (.block (Stmts.toVs body))
  | .ret e => .ret e
  | .brk => .brk
  | .other n => .other n
def Stmts.toVs : Stmts → Vs
  | .nil => .nil
  | .cons s ss => .cons (Stmt.toV s) (Stmts.toVs ss)
def Stmts.toItem : Stmts → V
  | .nil => .block .nil
  | .cons s ss => if ss.isEmpty && isAssign s then Stmt.toV s else .block (.cons (Stmt.toV s) (Stmts.toVs ss))
def Cases.toVc : Cases → List (Option Int × V)
  | .nil => []
  | .cons k b cs => (k, Stmts.toItem b) :: Cases.toVc cs
end

/-- Tokens a statement can begin with. -/
def starts : Tok → Bool
  | .target _ | .if_ | .begin_ | .unique_ | .case_ | .for_ | .return_ | .break_ | .other _ => true
  | _ => false

theorem map_ok {α β : Type} {f : α → β} {x : Res α} {b : β} : x.map f = .ok b ↔ ∃ a, x = .ok a ∧ f a = b := by
  cases x <;> simp [Res.map]

theorem code_starts (u : Bool) (s : Stmt) (ts : List Tok) (h : Stmt.code u s = .ok ts) : ∃ t r, ts = t :: r ∧ starts t = true := by
  cases s with
  | assign nb l r => cases h; exact ⟨_, _, rfl, rfl⟩
  | ite c t e =>
    simp only [Stmt.code, Res.bind_eq_ok, map_ok] at h
    obtain ⟨tt, -, et, -, rfl⟩ := h
    exact ⟨_, _, rfl, rfl⟩
  | switch tgt cs =>
    simp only [Stmt.code, map_ok] at h
    obtain ⟨l, -, rfl⟩ := h
    cases u
    · exact ⟨_, _, rfl, rfl⟩
    · exact ⟨_, _, rfl, rfl⟩
  | for_ iv a b s body =>
    simp only [Stmt.code, map_ok] at h
    obtain ⟨l, -, rfl⟩ := h
    exact ⟨_, _, rfl, rfl⟩
  | ret e => cases h; exact ⟨_, _, rfl, rfl⟩
  | brk => cases h; exact ⟨_, _, rfl, rfl⟩
  | other n => cases h; exact ⟨_, _, rfl, rfl⟩

theorem insert_map {α β : Type} (f : α → β) (x : Int × α) : ∀ l : List (Int × α),
    insertItem (x.1, f x.2) (l.map fun p => (p.1, f p.2)) = (insertItem x l).map fun p => (p.1, f p.2)
  | [] => rfl
  | y :: l => by
    simp only [List.map_cons, insertItem]
    split
    · rfl
    · rw [List.map_cons, insert_map f x l]

theorem sort_map {α β : Type} (f : α → β) : ∀ l : List (Option Int × α),
    sortItems (l.map fun p => (p.1, f p.2)) = (sortItems l).map fun p => (p.1, f p.2)
  | [] => rfl
  | (none, x) :: l => sort_map f l
  | (some c, x) :: l => by
    show insertItem (c, f x) (sortItems _) = _
    rw [sort_map f l, insert_map f (c, x)]
    rfl

theorem default_map {α β : Type} (f : α → β) (d : α) (l : List (Option Int × α)) :
    theDefault (f d) (l.map fun p => (p.1, f p.2)) = f (theDefault d l) := by
  unfold theDefault
  rw [List.find?_map]
  have e : ((fun p : Option Int × β => p.1.isNone) ∘ fun p : Option Int × α => (p.1, f p.2)) = fun p => p.1.isNone := rfl
  rw [e]
  cases l.find? (fun p => p.1.isNone) <;> rfl

theorem arrange_map {α β : Type} (f : α → β) (d : α) (l : List (Option Int × α)) :
    arrange (f d) (l.map fun p => (p.1, f p.2)) = (arrange d l).map fun p => (p.1, f p.2) := by
  unfold arrange
  rw [sort_map, default_map, List.map_append, List.map_map, List.map_map]
  rfl

theorem mem_insert {α : Type} {x y : Int × α} : ∀ {l : List (Int × α)}, y ∈ insertItem x l → y = x ∨ y ∈ l
  | [], h => .inl (List.mem_singleton.1 h)
  | z :: l, h => by
    unfold insertItem at h
    split at h
    · exact List.mem_cons.1 h
    · rcases List.mem_cons.1 h with h | h
      · exact .inr (h ▸ List.mem_cons_self ..)
      · exact (mem_insert h).imp id (List.mem_cons_of_mem _)

theorem mem_sort {α : Type} : ∀ {l : List (Option Int × α)} {y : Int × α}, y ∈ sortItems l → (some y.1, y.2) ∈ l
  | (none, x) :: l, y, h => List.mem_cons_of_mem _ (mem_sort (l := l) h)
  | (some c, x) :: l, y, h => by
    rcases mem_insert (l := sortItems l) h with h | h
    · subst h; exact List.mem_cons_self ..
    · exact List.mem_cons_of_mem _ (mem_sort h)

theorem mem_arrange {α : Type} {d : α} {l : List (Option Int × α)} {y : Option Int × α} (h : y ∈ arrange d l) : y ∈ l ∨ y = (none, d) := by
  unfold arrange at h
  rcases List.mem_append.1 h with h | h
  · obtain ⟨p, hp, rfl⟩ := List.mem_map.1 h
    exact .inl (mem_sort hp)
  · rw [List.mem_singleton] at h
    subst h
    unfold theDefault
    split
    · rename_i p hp
      have h1 := List.mem_of_find?_eq_some hp
      have h2 := List.find?_some hp
      obtain ⟨k, x⟩ := p
      cases k with
      | none => exact .inl h1
      | some c => cases h2
    · exact .inr rfl

/-- The next token does not continue an `if`. -/
def NoElse (rest : List Tok) : Prop := rest.head? ≠ some .else_

theorem noElse_of {t : Tok} (h : t ≠ .else_) (r : List Tok) : NoElse (t :: r) := by
  intro e
  cases e
  exact h rfl

theorem noElse_start {t : Tok} (h : starts t = true) (r : List Tok) : NoElse (t :: r) := noElse_of (by rintro rfl; cases h) r

theorem read_items : ∀ (L : List (Option Int × (List Tok × V))), (∀ p ∈ L, ∀ rest, NoElse rest → Reads p.2.1 rest p.2.2) → ∀ rest,
    ∃ N, ∀ n, N ≤ n → items n ((L.map fun p => (p.1, p.2.1)).flatMap itemToks ++ .endcase :: rest) = some (Vc.ofList (L.map fun p => (p.1, p.2.2)), rest)
  | [], _, rest => ⟨1, fun n hn => by
      obtain ⟨m, rfl⟩ : ∃ m, n = m + 1 := ⟨n - 1, by omega⟩
      simp only [List.map_nil, List.flatMap_nil, List.nil_append, items, Vc.ofList]⟩
  | (k, t, v) :: L, h, rest => by
    obtain ⟨N, hN⟩ := read_items L (fun p hp => h p (List.mem_cons_of_mem _ hp)) rest
    have hne : NoElse ((L.map fun p => (p.1, p.2.1)).flatMap itemToks ++ .endcase :: rest) := by
      cases L with
      | nil => exact noElse_of (by decide) _
      | cons q L =>
        obtain ⟨k', t', v'⟩ := q
        cases k' with
        | none => exact noElse_of (t := .default_) (by decide) _
        | some c => exact noElse_of (t := .label c) (by intro e; cases e) _
    obtain ⟨M, hM⟩ := h (k, t, v) (List.mem_cons_self ..) _ hne
    refine ⟨N + M + 1, fun n hn => ?_⟩
    obtain ⟨m, rfl⟩ : ∃ m, n = m + 1 := ⟨n - 1, by omega⟩
    have hM' := hM m (by omega)
    have hN' := hN m (by omega)
    clear hM hN
    simp only at hM'
    cases k with
    | none =>
      simp only [List.map_cons, List.flatMap_cons, itemToks, List.cons_append, List.append_assoc, items, Vc.ofList]
      rw [hM']
      simp only [Option.bind_some]
      rw [hN']
      rfl
    | some c =>
      simp only [List.map_cons, List.flatMap_cons, itemToks, List.cons_append, List.append_assoc, items, Vc.ofList]
      rw [hM']
      simp only [Option.bind_some]
      rw [hN']
      rfl

theorem read_header (h : Header) (iv : VarId) (rest : List Tok) :
    ∃ r, headerToks h iv ++ rest = .for_ :: .lp :: r ∧ readHeader r = some (h, iv, rest) := by
  obtain ⟨d, a, c, b, s, m⟩ := h
  refine ⟨_, rfl, ?_⟩
  cases d <;> cases c <;> cases s <;> simp [declToks, readHeader, readDecl, readCmp, readStep]

theorem succ_of {N n : Nat} (h : N + 1 ≤ n) : ∃ m, n = m + 1 ∧ N ≤ m := ⟨n - 1, by omega, by omega⟩

/-- A block reads as a block. -/
theorem read_block {ts rest : List Tok} {vs : Vs} (h : ∃ N, ∀ n, N ≤ n → stmts n (ts ++ .end_ :: rest) = some (vs, rest)) :
    ∃ N, ∀ n, N ≤ n → stmt n (.begin_ :: ts ++ .end_ :: rest) = some (.block vs, rest) := by
  obtain ⟨N, h⟩ := h
  refine ⟨N + 1, fun n hn => ?_⟩
  obtain ⟨m, rfl, hm⟩ := succ_of hn
  simp only [List.cons_append, stmt]
  rw [h m hm]
  rfl

theorem read_cons {a b rest : List Tok} {v : V} {vs : Vs} {t : Tok} {r : List Tok} (ha : a = t :: r) (ht : starts t = true)
    (h1 : ∃ N, ∀ n, N ≤ n → stmt n (a ++ (b ++ .end_ :: rest)) = some (v, b ++ .end_ :: rest))
    (h2 : ∃ N, ∀ n, N ≤ n → stmts n (b ++ .end_ :: rest) = some (vs, rest)) :
    ∃ N, ∀ n, N ≤ n → stmts n (a ++ b ++ .end_ :: rest) = some (.cons v vs, rest) := by
  obtain ⟨N, h1⟩ := h1
  obtain ⟨M, h2⟩ := h2
  refine ⟨N + M + 1, fun n hn => ?_⟩
  obtain ⟨m, rfl, hm⟩ := succ_of hn
  have h1' := h1 m (by omega)
  have h2' := h2 m (by omega)
  subst ha
  rw [List.append_assoc]
  have e : stmts (m + 1) (t :: r ++ (b ++ .end_ :: rest)) = (stmt m (t :: r ++ (b ++ .end_ :: rest))).bind fun p => (stmts m p.2).map fun q => (.cons p.1 q.1, q.2) := by
    rw [List.cons_append]
    cases t <;> first | rfl | cases ht
  rw [e, h1']
  simp only [Option.bind_some]
  rw [h2']
  rfl

mutual
theorem read_stmt (u : Bool) : ∀ (s : Stmt) (ts : List Tok), Stmt.code u s = .ok ts → ∀ rest, NoElse rest → Reads ts rest (Stmt.toV s)
  | .assign nb l r, ts, h, rest, _ => by
    cases h
    refine ⟨1, fun n hn => ?_⟩
    obtain ⟨m, rfl, -⟩ := succ_of hn
    cases nb <;> rfl
  | .ret e, ts, h, rest, _ => by
    cases h
    refine ⟨1, fun n hn => ?_⟩
    obtain ⟨m, rfl, -⟩ := succ_of hn
    rfl
  | .brk, ts, h, rest, _ => by
    cases h
    refine ⟨1, fun n hn => ?_⟩
    obtain ⟨m, rfl, -⟩ := succ_of hn
    rfl
  | .other k, ts, h, rest, _ => by
    cases h
    refine ⟨1, fun n hn => ?_⟩
    obtain ⟨m, rfl, -⟩ := succ_of hn
    rfl
  | .ite c t e, ts, h, rest, hr => by
    simp only [Stmt.code, Res.bind_eq_ok, map_ok] at h
    obtain ⟨tt, ht, et, he, rfl⟩ := h
    obtain ⟨N, hN⟩ := read_block (read_stmts u t tt ht (et ++ rest))
    obtain ⟨M, hM⟩ := read_else u e et he c (.block (Stmts.toVs t)) rest hr
    refine ⟨N + M + 1, fun n hn => ?_⟩
    obtain ⟨m, rfl, hm⟩ := succ_of hn
    have h1 := hN m (by omega)
    simp only [List.cons_append, List.append_assoc] at h1 ⊢
    simp only [stmt]
    rw [h1]
    simp only [Option.bind_some]
    rw [hM m (by omega)]
    cases e <;> simp only [Stmt.toV]
  | .switch tgt cs, ts, h, rest, _ => by
    simp only [Stmt.code, map_ok] at h
    obtain ⟨l, hl, rfl⟩ := h
    obtain ⟨L, h1, h2, h3⟩ := read_codes u cs l hl
    have h4 : ∀ p ∈ arrange ([.begin_, .end_], V.block .nil) L, ∀ rest, NoElse rest → Reads p.2.1 rest p.2.2 := by
      intro p hp
      rcases mem_arrange hp with hp | rfl
      · exact h3 p hp
      · intro rest _
        refine ⟨2, fun n hn => ?_⟩
        obtain ⟨m, rfl, hm⟩ := succ_of hn
        obtain ⟨m, rfl, -⟩ := succ_of hm
        rfl
    obtain ⟨N, hN⟩ := read_items _ h4 rest
    have e1 := arrange_map (fun p : List Tok × V => p.1) ([.begin_, .end_], V.block .nil) L
    have e2 := arrange_map (fun p : List Tok × V => p.2) ([.begin_, .end_], V.block .nil) L
    simp only at e1 e2
    rw [← h1] at e1
    rw [← h2] at e2
    rw [← e1, ← e2] at hN
    refine ⟨N + 1, fun n hn => ?_⟩
    obtain ⟨m, rfl, hm⟩ := succ_of hn
    have := hN m hm
    cases u <;> simp only [Bool.false_eq_true, if_false, if_true, List.nil_append, List.cons_append, List.append_assoc, stmt] <;> rw [this] <;> rfl
  | .for_ iv a b s body, ts, h, rest, _ => by
    simp only [Stmt.code, map_ok] at h
    obtain ⟨bt, hb, rfl⟩ := h
    obtain ⟨N, hN⟩ := read_block (read_stmts u body bt hb rest)
    obtain ⟨r, e, hr⟩ := read_header (header false a b s) iv (.begin_ :: bt ++ .end_ :: rest)
    refine ⟨N + 1, fun n hn => ?_⟩
    obtain ⟨m, rfl, hm⟩ := succ_of hn
    have e' : headerToks (header false a b s) iv ++ .begin_ :: bt ++ [.end_] ++ rest = .for_ :: .lp :: r := by
      rw [← e]; simp
    rw [e']
    simp only [stmt]
    rw [hr]
    simp only [Option.bind_some]
    rw [hN m hm]
    rfl
theorem read_stmts (u : Bool) : ∀ (ss : Stmts) (ts : List Tok), Stmts.code u ss = .ok ts → ∀ rest,
    ∃ N, ∀ n, N ≤ n → stmts n (ts ++ .end_ :: rest) = some (Stmts.toVs ss, rest)
  | .nil, ts, h, rest => by
    cases h
    refine ⟨1, fun n hn => ?_⟩
    obtain ⟨m, rfl, -⟩ := succ_of hn
    rfl
  | .cons s ss, ts, h, rest => by
    simp only [Stmts.code, Res.bind_eq_ok, map_ok] at h
    obtain ⟨a, ha, b, hb, rfl⟩ := h
    obtain ⟨t, r, e, ht⟩ := code_starts u s a ha
    refine read_cons e ht (read_stmt u s a ha _ ?_) (read_stmts u ss b hb rest)
    cases ss with
    | nil => cases hb; exact noElse_of (by decide) _
    | cons s' ss' =>
      simp only [Stmts.code, Res.bind_eq_ok, map_ok] at hb
      obtain ⟨a', ha', b', -, rfl⟩ := hb
      obtain ⟨t', r', rfl, ht'⟩ := code_starts u s' a' ha'
      exact noElse_start ht' _
theorem read_else (u : Bool) : ∀ (e : Stmts) (et : List Tok), Stmts.elseCode u e = .ok et → ∀ (c : Expr) (tv : V) (rest : List Tok), NoElse rest →
    ∃ N, ∀ n, N ≤ n → ifRest n c (tv, et ++ rest) = some (match e with
      | .nil => .if_ c tv
      | .cons s ss => .ifElse c tv (if ss.isEmpty && short s then Stmt.toV s else .block (.cons (Stmt.toV s) (Stmts.toVs ss))), rest)
  | .nil, et, h, c, tv, rest, hr => by
    cases h
    refine ⟨1, fun n hn => ?_⟩
    obtain ⟨m, rfl, -⟩ := succ_of hn
    cases rest with
    | nil => rfl
    | cons x r =>
      have hx : x ≠ .else_ := fun e => hr (by rw [e]; rfl)
      cases x <;> first | rfl | exact absurd rfl hx
  | .cons s ss, et, h, c, tv, rest, hr => by
    simp only [Stmts.elseCode, Res.bind_eq_ok, map_ok] at h
    obtain ⟨a, ha, b, hb, rfl⟩ := h
    cases hc : (ss.isEmpty && short s) with
    | true =>
      obtain ⟨N, hN⟩ := read_stmt u s a ha rest hr
      refine ⟨N + 1, fun n hn => ?_⟩
      obtain ⟨m, rfl, hm⟩ := succ_of hn
      simp only [if_true, List.cons_append, ifRest, hc]
      rw [hN m hm, Option.map_some]
    | false =>
      obtain ⟨t, r, e, ht⟩ := code_starts u s a ha
      have hne : NoElse (b ++ .end_ :: rest) := by
        cases ss with
        | nil => cases hb; exact noElse_of (by decide) _
        | cons s' ss' =>
          simp only [Stmts.code, Res.bind_eq_ok, map_ok] at hb
          obtain ⟨a', ha', b', -, rfl⟩ := hb
          obtain ⟨t', r', rfl, ht'⟩ := code_starts u s' a' ha'
          exact noElse_start ht' _
      obtain ⟨N, hN⟩ := read_block (read_cons e ht (read_stmt u s a ha _ hne) (read_stmts u ss b hb rest))
      refine ⟨N + 1, fun n hn => ?_⟩
      obtain ⟨m, rfl, hm⟩ := succ_of hn
      have := hN m hm
      simp only [List.cons_append, List.append_assoc] at this
      simp only [Bool.false_eq_true, if_false, List.cons_append, List.append_assoc, ifRest, List.nil_append, hc]
      rw [this, Option.map_some]
theorem read_item (u : Bool) : ∀ (ss : Stmts) (ts : List Tok), Stmts.itemCode u ss = .ok ts → ∀ rest, NoElse rest → Reads ts rest (Stmts.toItem ss)
  | .nil, ts, h, rest, _ => by
    cases h
    refine ⟨2, fun n hn => ?_⟩
    obtain ⟨m, rfl, hm⟩ := succ_of hn
    obtain ⟨m, rfl, -⟩ := succ_of hm
    rfl
  | .cons s ss, ts, h, rest, hr => by
    simp only [Stmts.itemCode, Res.bind_eq_ok, map_ok] at h
    obtain ⟨a, ha, b, hb, rfl⟩ := h
    cases hc : (ss.isEmpty && isAssign s) with
    | true =>
      simp only [Stmts.toItem, hc, if_true]
      exact read_stmt u s a ha rest hr
    | false =>
      obtain ⟨t, r, e, ht⟩ := code_starts u s a ha
      have hne : NoElse (b ++ .end_ :: rest) := by
        cases ss with
        | nil => cases hb; exact noElse_of (by decide) _
        | cons s' ss' =>
          simp only [Stmts.code, Res.bind_eq_ok, map_ok] at hb
          obtain ⟨a', ha', b', -, rfl⟩ := hb
          obtain ⟨t', r', rfl, ht'⟩ := code_starts u s' a' ha'
          exact noElse_start ht' _
      obtain ⟨N, hN⟩ := read_block (read_cons e ht (read_stmt u s a ha _ hne) (read_stmts u ss b hb rest))
      refine ⟨N, fun n hn => ?_⟩
      have := hN n hn
      simp only [List.cons_append, List.append_assoc] at this
      simp only [Stmts.toItem, hc, Bool.false_eq_true, if_false, List.cons_append, List.append_assoc, List.nil_append]
      exact this
theorem read_codes (u : Bool) : ∀ (cs : Cases) (l : List (Option Int × List Tok)), Cases.codes u cs = .ok l → ∃ L : List (Option Int × (List Tok × V)),
    l = L.map (fun p => (p.1, p.2.1)) ∧ Cases.toVc cs = L.map (fun p => (p.1, p.2.2)) ∧ ∀ p ∈ L, ∀ rest, NoElse rest → Reads p.2.1 rest p.2.2
  | .nil, l, h => by
    cases h
    exact ⟨[], rfl, rfl, fun _ h => nomatch h⟩
  | .cons k b cs, l, h => by
    unfold Cases.codes at h
    split at h
    · cases h
    · simp only [Res.bind_eq_ok, map_ok] at h
      obtain ⟨t, ht, l', hl, rfl⟩ := h
      obtain ⟨L, h1, h2, h3⟩ := read_codes u cs l' hl
      refine ⟨(k, t, Stmts.toItem b) :: L, by rw [h1]; rfl, by rw [Cases.toVc, h2]; rfl, fun p hp => ?_⟩
      rcases List.mem_cons.1 hp with e | hp
      · rw [e]
        exact read_item u b t ht
      · exact h3 p hp
end

/-! ### Proof: behaviour -/

def matchLab {β : Type} (w x : Nat) : List (Option Int × β) → Option β
  | [] => none
  | (none, _) :: l => matchLab w x l
  | (some c, b) :: l => if pattern w c = x then some b else matchLab w x l

theorem match_map {β γ : Type} (f : β → γ) (w x : Nat) : ∀ l : List (Option Int × β), matchLab w x (l.map fun p => (p.1, f p.2)) = (matchLab w x l).map f
  | [] => rfl
  | (none, _) :: l => match_map f w x l
  | (some c, b) :: l => by
    simp only [List.map_cons, matchLab]
    split
    · rfl
    · exact match_map f w x l

theorem match_mem {β : Type} {w x : Nat} : ∀ {l : List (Option Int × β)} {b : β}, matchLab w x l = some b → ∃ k, (k, b) ∈ l
  | (none, _) :: l, b, h => by
    obtain ⟨k, hk⟩ := match_mem (l := l) h
    exact ⟨k, List.mem_cons_of_mem _ hk⟩
  | (some c, b') :: l, b, h => by
    unfold matchLab at h
    split at h
    · cases h; exact ⟨_, List.mem_cons_self ..⟩
    · obtain ⟨k, hk⟩ := match_mem h
      exact ⟨k, List.mem_cons_of_mem _ hk⟩

theorem match_insert {β : Type} (w x : Nat) (y : Int × β) : ∀ l : List (Int × β), (∀ z ∈ l, pattern w z.1 ≠ pattern w y.1) →
    matchLab w x ((insertItem y l).map fun p => (some p.1, p.2)) = matchLab w x ((some y.1, y.2) :: l.map fun p => (some p.1, p.2))
  | [], _ => rfl
  | z :: l, h => by
    unfold insertItem
    split
    · rfl
    · have ih := match_insert w x y l fun z hz => h z (List.mem_cons_of_mem _ hz)
      have hz := h z (List.mem_cons_self ..)
      simp only [List.map_cons, matchLab] at ih ⊢
      rw [ih]
      rcases Decidable.em (pattern w z.1 = x) with h1 | h1
      · rw [if_pos h1, if_neg (fun h2 => hz (h1.trans h2.symm)), if_pos h1]
      · rw [if_neg h1, if_neg h1]

theorem match_sort {β : Type} (w x : Nat) : ∀ l : List (Option Int × β), (l.map fun p => p.1.map (pattern w)).Nodup →
    matchLab w x ((sortItems l).map fun p => (some p.1, p.2)) = matchLab w x l
  | [], _ => rfl
  | (none, b) :: l, h => match_sort w x l (List.nodup_cons.1 h).2
  | (some c, b) :: l, h => by
    have h' := List.nodup_cons.1 h
    show matchLab w x ((insertItem (c, b) (sortItems l)).map _) = _
    rw [match_insert w x (c, b)]
    · simp only [matchLab]
      rw [match_sort w x l h'.2]
    · intro z hz e
      exact h'.1 (List.mem_map.2 ⟨_, mem_sort hz, congrArg some e⟩)

/-- What a switch statement does, in terms of the list of its items. -/
theorem cases_exec (ι : Nat → St → St) (w x : Nat) : ∀ (cs : Cases) (k : St → St) (st : St), (cs.toList.map fun p => p.1.map (pattern w)).Nodup →
    cs.exec ι w x k st = match matchLab w x cs.toList with
      | some b => b.exec ι st
      | none => match cs.toList.find? (fun p => p.1.isNone) with
        | some p => p.2.exec ι st
        | none => k st
  | .nil, _, _, _ => rfl
  | .cons none b cs, k, st, h => by
    have h' := List.nodup_cons.1 h
    simp only [Cases.exec, Cases.toList, matchLab, List.find?_cons, Option.isNone_none]
    rw [cases_exec ι w x cs _ st h'.2]
    have hn : cs.toList.find? (fun p => p.1.isNone) = none := by
      rw [List.find?_eq_none]
      intro p hp hq
      apply h'.1
      refine List.mem_map.2 ⟨p, hp, ?_⟩
      obtain ⟨k, b'⟩ := p
      cases k with
      | none => rfl
      | some c => cases hq
    rw [hn]
  | .cons (some c) b cs, k, st, h => by
    have h' := List.nodup_cons.1 h
    simp only [Cases.exec, Cases.toList, matchLab, List.find?_cons, Option.isNone_some]
    split
    · rfl
    · exact cases_exec ι w x cs k st h'.2

theorem vc_exec (ι : Nat → St → St) (n w x : Nat) (d : V) (st : St) : ∀ (l : List (Int × V)) (k : St → Option St),
    (Vc.ofList ((l.map fun p => (some p.1, p.2)) ++ [(none, d)])).exec ι n w x k st =
      match matchLab w x (l.map fun p => (some p.1, p.2)) with
      | some v => v.exec ι n st
      | none => d.exec ι n st
  | [], k => rfl
  | (c, v) :: l, k => by
    simp only [List.map_cons, List.cons_append, Vc.ofList, Vc.exec, matchLab]
    split
    · rfl
    · exact vc_exec ι n w x d st l k

/-- Equal except for variable `iv`. -/
structure SameOff (iv : VarId) (a b : St) : Prop where
  val : ∀ v, v ≠ iv → a.val v = b.val v
  nba : a.nba = b.nba
  ctl : a.ctl = b.ctl

def setPat (iv : VarId) (x : Nat) (st : St) : St := { st with val := fun v => if v = iv then x else st.val v }

theorem SameOff.setPat {iv : VarId} {a b : St} (h : SameOff iv a b) (x : Nat) : setPat iv x a = setPat iv x b := by
  unfold StmtText.setPat
  obtain ⟨av, an, ac⟩ := a
  obtain ⟨bv, bn, bc⟩ := b
  obtain ⟨h1, h2, h3⟩ := h
  simp only at h2 h3 h1 ⊢
  subst h2 h3
  congr 1
  funext v
  split
  · rfl
  · exact h1 v ‹_›

theorem SameOff.endLoop {iv : VarId} {a b : St} (h : SameOff iv a b) (st : St) : endLoop iv st a = endLoop iv st b := by
  unfold Ir.endLoop
  rw [h.nba, h.ctl]
  congr 1
  funext v
  split
  · rfl
  · exact h.val v ‹_›

theorem setPat_self {iv : VarId} {st : St} {x : Nat} (h : st.val iv = x) : setPat iv x st = st := by
  unfold setPat
  obtain ⟨sv, sn, sc⟩ := st
  simp only at h ⊢
  congr 1
  funext v
  split
  · rename_i e; rw [e]; exact h.symm
  · rfl

def oneTurn (iv : VarId) (f : St → St) (st : St) (x : Nat) : St := guardRun st (f (setPat iv x st))

theorem turn_same {iv : VarId} (f : St → St) : ∀ (l : List Nat) {a b : St}, SameOff iv a b → SameOff iv (l.foldl (oneTurn iv f) a) (l.foldl (oneTurn iv f) b)
  | [], _, _, h => h
  | x :: l, a, b, h => by
    rw [List.foldl_cons, List.foldl_cons]
    apply turn_same f l
    unfold oneTurn guardRun
    rw [h.ctl]
    split
    · rw [h.setPat x]; exact ⟨fun _ _ => rfl, rfl, rfl⟩
    · exact h

theorem turn_stopped {iv : VarId} (f : St → St) {st : St} (h : st.ctl ≠ .run) : ∀ l : List Nat, l.foldl (oneTurn iv f) st = st
  | [] => rfl
  | x :: l => by
    rw [List.foldl_cons]
    have : oneTurn iv f st x = st := by unfold oneTurn guardRun; rw [if_neg h]
    rw [this]
    exact turn_stopped f h l

theorem loop_ends {h : Header} {iv : VarId} {f : St → St} {bv : Nat → St → Option St} (hb : ∀ st, ∃ N, ∀ n, N ≤ n → bv n st = some (f st))
    (hk : ∀ st, (f st).val iv = st.val iv) : ∀ (k : Nat) (x : Nat) (l : List Nat), h.iterations k x = some l → ∀ st : St, st.val iv = x →
    ∃ N st', (∀ n m, N ≤ n → N ≤ m → runLoop h iv (bv m) n st = some st') ∧ SameOff iv st' (l.foldl (oneTurn iv f) st)
  | 0, _, _, e, _, _ => by cases e
  | k + 1, x, l, e, st, hx => by
    rcases Decidable.em (st.ctl = .run) with hc | hc
    · unfold Header.iterations at e
      split at e
      · rename_i hh
        obtain ⟨l', hl, rfl⟩ := Option.map_eq_some_iff.1 e
        obtain ⟨N1, h1⟩ := hb st
        have ht : oneTurn iv f st x = f st := by unfold oneTurn guardRun; rw [if_pos hc, setPat_self hx]
        rcases Decidable.em ((f st).ctl = .run) with hc1 | hc1
        · let st2 : St := { f st with val := fun v => if v = iv then h.next ((f st).val iv) else (f st).val v }
          have hx2 : st2.val iv = h.next x := by
            show (if iv = iv then h.next ((f st).val iv) else _) = _
            rw [if_pos rfl, hk, hx]
          obtain ⟨N2, st', h2, h3⟩ := loop_ends hb hk k (h.next x) l' hl st2 hx2
          refine ⟨N1 + N2 + 1, st', fun n m hn hm => ?_, ?_⟩
          · obtain ⟨n, rfl, hn'⟩ := succ_of hn
            simp only [runLoop]
            rw [if_pos hc, hx, if_pos hh, h1 m (by omega), Option.bind_some, if_pos hc1]
            exact h2 n m (by omega) (by omega)
          · rw [List.foldl_cons, ht]
            have : SameOff iv st2 (f st) := ⟨fun v hv => by show (if v = iv then _ else _) = _; rw [if_neg hv], rfl, rfl⟩
            have h4 := turn_same f l' this
            exact ⟨fun v hv => (h3.val v hv).trans (h4.val v hv), h3.nba.trans h4.nba, h3.ctl.trans h4.ctl⟩
        · refine ⟨N1 + 2, f st, fun n m hn hm => ?_, ?_⟩
          · obtain ⟨n, rfl, hn'⟩ := succ_of (N := N1 + 1) hn
            obtain ⟨n, rfl, -⟩ := succ_of hn'
            rw [runLoop, if_pos hc, hx, if_pos hh, h1 m (by omega), Option.bind_some, if_neg hc1, runLoop, if_neg hc1]
          · rw [List.foldl_cons, ht, turn_stopped f hc1]
            exact ⟨fun _ _ => rfl, rfl, rfl⟩
      · rename_i hh
        cases e
        refine ⟨1, st, fun n m hn _ => ?_, ⟨fun _ _ => rfl, rfl, rfl⟩⟩
        obtain ⟨n, rfl, -⟩ := succ_of hn
        rw [runLoop, if_pos hc, hx, if_neg hh]
    · refine ⟨1, st, fun n m hn _ => ?_, by rw [turn_stopped f hc]; exact ⟨fun _ _ => rfl, rfl, rfl⟩⟩
      obtain ⟨n, rfl, -⟩ := succ_of hn
      rw [runLoop, if_neg hc]

theorem guard_val {iv : VarId} {st x : St} (h : x.val iv = st.val iv) : (guardRun st x).val iv = st.val iv := by
  unfold guardRun
  split
  · exact h
  · rfl

mutual
/-- A statement that does not assign `iv` leaves it alone. -/
theorem keeps_stmt {ι : Nat → St → St} {iv : VarId} (hι : ∀ n st, (ι n st).val iv = st.val iv) : ∀ (s : Stmt), Stmt.sets iv s = false →
    ∀ st, (s.exec ι st).val iv = st.val iv
  | .assign nb l r, h, st => by
    have hne : iv ≠ l.v := fun e => by rw [Stmt.sets, e, beq_self_eq_true] at h; cases h
    apply guard_val
    cases nb
    · exact Store.write_ne hne
    · rfl
  | .ite c t e, h, st => by
    simp only [Stmt.sets, Bool.or_eq_false_iff] at h
    apply guard_val
    split
    · exact keeps_stmts hι t h.1 st
    · exact keeps_stmts hι e h.2 st
  | .switch tgt cs, h, st => guard_val (keeps_cases hι cs h _ _ id (fun _ => rfl) st)
  | .for_ jv a b s body, h, st => by
    apply guard_val
    show (if iv = jv then st.val jv else _) = _
    split
    · rename_i e; rw [e]
    · rename_i hne
      have hb : Stmts.sets iv body = false := by
        simp only [Stmt.sets, Bool.and_eq_false_iff, bne_eq_false_iff_eq] at h
        exact h.resolve_left fun e => hne e.symm
      have : ∀ (l : List Int) (st : St), (l.foldl (fun st i => guardRun st (body.exec ι (setIter jv i st))) st).val iv = st.val iv := by
        intro l
        induction l with
        | nil => exact fun _ => rfl
        | cons i l ih =>
          intro st
          rw [List.foldl_cons, ih]
          apply guard_val
          rw [keeps_stmts hι body hb]
          show (if iv = jv then _ else _) = _
          rw [if_neg hne]
      exact this _ st
  | .ret e, _, st => guard_val rfl
  | .brk, _, st => guard_val rfl
  | .other n, _, st => guard_val (hι n st)
theorem keeps_stmts {ι : Nat → St → St} {iv : VarId} (hι : ∀ n st, (ι n st).val iv = st.val iv) : ∀ (ss : Stmts), Stmts.sets iv ss = false →
    ∀ st, (ss.exec ι st).val iv = st.val iv
  | .nil, _, _ => rfl
  | .cons s ss, h, st => by
    simp only [Stmts.sets, Bool.or_eq_false_iff] at h
    rw [Stmts.exec, keeps_stmts hι ss h.2, keeps_stmt hι s h.1]
theorem keeps_cases {ι : Nat → St → St} {iv : VarId} (hι : ∀ n st, (ι n st).val iv = st.val iv) : ∀ (cs : Cases), Cases.sets iv cs = false →
    ∀ (w x : Nat) (k : St → St), (∀ st, (k st).val iv = st.val iv) → ∀ st, (cs.exec ι w x k st).val iv = st.val iv
  | .nil, _, _, _, _, hk, st => hk st
  | .cons none b cs, h, w, x, k, hk, st => by
    simp only [Cases.sets, Bool.or_eq_false_iff] at h
    exact keeps_cases hι cs h.2 w x _ (fun st => keeps_stmts hι b h.1 st) st
  | .cons (some c) b cs, h, w, x, k, hk, st => by
    simp only [Cases.sets, Bool.or_eq_false_iff] at h
    unfold Cases.exec
    split
    · exact keeps_stmts hι b h.1 st
    · exact keeps_cases hι cs h.2 w x k hk st
end

theorem keys_toList : ∀ (cs : Cases), keys cs = cs.toList.map (·.1)
  | .nil => rfl
  | .cons k b cs => by rw [keys, Cases.toList, List.map_cons, keys_toList cs]

def Vs.Ends (ι : Nat → St → St) (vs : Vs) (st st' : St) : Prop := ∃ N, ∀ n, N ≤ n → vs.exec ι n st = some st'

theorem block_ends {ι : Nat → St → St} {vs : Vs} {st st' : St} (h : vs.Ends ι st st') : (V.block vs).Ends ι st st' := h

theorem cons_ends {ι : Nat → St → St} {v : V} {vs : Vs} {st st1 st2 : St} (h1 : v.Ends ι st st1) (h2 : vs.Ends ι st1 st2) : (Vs.cons v vs).Ends ι st st2 := by
  obtain ⟨N, h1⟩ := h1
  obtain ⟨M, h2⟩ := h2
  exact ⟨N + M, fun n hn => by rw [Vs.exec, h1 n (by omega), Option.bind_some, h2 n (by omega)]⟩

theorem stopped_ends {ι : Nat → St → St} {v : V} {st : St} (h : ∀ n, v.exec ι n st = some st) : v.Ends ι st st := ⟨0, fun n _ => h n⟩

mutual
theorem ends_stmt {ι : Nat → St → St} : ∀ (s : Stmt), Stmt.Ok s → (∀ iv, Stmt.loops iv s = true → ∀ n st, (ι n st).val iv = st.val iv) →
    ∀ st, (Stmt.toV s).Ends ι st (s.exec ι st)
  | .assign nb l r, _, _, st => ⟨0, fun _ _ => rfl⟩
  | .ret e, _, _, st => ⟨0, fun _ _ => rfl⟩
  | .brk, _, _, st => ⟨0, fun _ _ => rfl⟩
  | .other n, _, _, st => ⟨0, fun _ _ => rfl⟩
  | .ite c t e, hok, hι, st => by
    have ht := ends_stmts t hok.1 (fun iv h => hι iv (by simp [Stmt.loops, h])) st
    have he := ends_else e hok.2 (fun iv h => hι iv (by simp [Stmt.loops, h])) st
    obtain ⟨N, ht⟩ := ht
    obtain ⟨M, he⟩ := he
    refine ⟨N + M, fun n hn => ?_⟩
    have ht' := ht n (by omega)
    have he' := he n (by omega)
    rw [Stmt.exec, guardRun]
    cases e with
    | nil =>
      simp only [Stmt.toV, V.exec, ht', Stmts.exec]
      split
      · split <;> rfl
      · rfl
    | cons s ss =>
      simp only at he'
      simp only [Stmt.toV, V.exec, ht', he']
      split
      · split <;> rfl
      · rfl
  | .switch tgt cs, hok, hι, st => by
    obtain ⟨hnd, hcs⟩ := hok
    obtain ⟨L, h1, h2, h3⟩ := ends_cases cs hcs (fun iv h => hι iv (by simpa [Stmt.loops] using h))
    rw [keys_toList, List.map_map] at hnd
    have hndL : (L.map fun p => p.1.map (pattern tgt.width)).Nodup := by
      rw [h1, List.map_map] at hnd
      exact hnd
    rw [Stmt.exec, guardRun]
    rcases Decidable.em (st.ctl = .run) with hc | hc
    · rw [if_pos hc, cases_exec ι tgt.width _ cs id st hnd]
      have hv : ∀ n, (Stmt.toV (.switch tgt cs)).exec ι n st = match matchLab tgt.width (tgt.eval st.val) (Cases.toVc cs) with
          | some v => v.exec ι n st
          | none => (theDefault (.block .nil) (Cases.toVc cs)).exec ι n st := by
        intro n
        simp only [Stmt.toV, V.exec]
        rw [if_pos hc, arrange, vc_exec, match_sort]
        rw [h2, List.map_map]
        exact hndL
      have e1 : matchLab tgt.width (tgt.eval st.val) cs.toList = (matchLab tgt.width (tgt.eval st.val) L).map (·.1) := by rw [h1, match_map]
      have e2 : matchLab tgt.width (tgt.eval st.val) (Cases.toVc cs) = (matchLab tgt.width (tgt.eval st.val) L).map (·.2) := by rw [h2, match_map]
      rw [e1]
      rw [e2] at hv
      cases hm : matchLab tgt.width (tgt.eval st.val) L with
      | some p =>
        obtain ⟨k, hk⟩ := match_mem hm
        obtain ⟨N, hN⟩ := h3 _ hk st
        refine ⟨N, fun n hn => ?_⟩
        rw [hv, hm]
        exact hN n hn
      | none =>
        have e3 : theDefault (.block .nil) (Cases.toVc cs) = (theDefault (Stmts.nil, V.block .nil) L).2 := by rw [h2, ← default_map (fun p : Stmts × V => p.2)]
        have e4 : theDefault Stmts.nil cs.toList = (theDefault (Stmts.nil, V.block .nil) L).1 := by rw [h1, ← default_map (fun p : Stmts × V => p.1)]
        have hd : ∀ st, (theDefault (Stmts.nil, V.block .nil) L).2.Ends ι st ((theDefault (Stmts.nil, V.block .nil) L).1.exec ι st) := by
          intro st
          unfold theDefault
          split
          · rename_i p hp
            exact h3 p (List.mem_of_find?_eq_some hp) st
          · exact ⟨0, fun _ _ => rfl⟩
        obtain ⟨N, hN⟩ := hd st
        refine ⟨N, fun n hn => ?_⟩
        rw [hv, hm]
        simp only [Option.map_none]
        rw [e3, hN n hn, ← e4]
        unfold theDefault
        cases cs.toList.find? (fun p => p.1.isNone) with
        | none => rfl
        | some p => rfl
    · rw [if_neg hc]
      exact ⟨0, fun n _ => by simp only [Stmt.toV, V.exec]; rw [if_neg hc]⟩
  | .for_ iv a b s body, hok, hι, st => by
    obtain ⟨hf, hg, hset, hb⟩ := hok
    rw [Stmt.exec, guardRun]
    rcases Decidable.em (st.ctl = .run) with hc | hc
    · rw [if_pos hc]
      have hbody := ends_stmts body hb (fun jv h => hι jv (by simp [Stmt.loops, h]))
      have hk : ∀ st, (body.exec ι st).val iv = st.val iv := keeps_stmts (hι iv (by simp [Stmt.loops])) body hset
      obtain ⟨k, hk'⟩ := (ForText.for_text_iff hf).2 hg
      obtain ⟨N, st', h1, h2⟩ := loop_ends (f := fun st => body.exec ι st) (bv := fun n st => (V.block (Stmts.toVs body)).exec ι n st)
        hbody hk k _ _ hk' (setPat iv (pattern 32 (header false a b s).start) st) (by show (if iv = iv then _ else _) = _; rw [if_pos rfl])
      refine ⟨N, fun n hn => ?_⟩
      simp only [Stmt.toV, V.exec]
      rw [if_pos hc]
      have h1' := h1 n n hn hn
      simp only [setPat, V.exec] at h1'
      rw [h1', Option.map_some]
      congr 1
      have h3 : SameOff iv (setPat iv (pattern 32 (header false a b s).start) st) st :=
        ⟨fun v hv => by show (if v = iv then _ else _) = _; rw [if_neg hv], rfl, rfl⟩
      have h4 := turn_same (fun st => body.exec ι st) ((ForText.header false a b s, iterValues a b s).2.map (pattern 32)) h3
      have h5 : SameOff iv st' ((iterValues a b s).foldl (fun st i => guardRun st (body.exec ι (setIter iv i st))) st) := by
        have e : ((iterValues a b s).map (pattern 32)).foldl (oneTurn iv fun st => body.exec ι st) st =
            (iterValues a b s).foldl (fun st i => guardRun st (body.exec ι (setIter iv i st))) st := by
          rw [List.foldl_map]; rfl
        rw [← e]
        exact ⟨fun v hv => (h2.val v hv).trans (h4.val v hv), h2.nba.trans h4.nba, h2.ctl.trans h4.ctl⟩
      exact h5.endLoop st
    · rw [if_neg hc]
      exact ⟨0, fun n _ => by simp only [Stmt.toV, V.exec]; rw [if_neg hc]⟩
theorem ends_stmts {ι : Nat → St → St} : ∀ (ss : Stmts), Stmts.Ok ss → (∀ iv, Stmts.loops iv ss = true → ∀ n st, (ι n st).val iv = st.val iv) →
    ∀ st, (Stmts.toVs ss).Ends ι st (ss.exec ι st)
  | .nil, _, _, st => ⟨0, fun _ _ => rfl⟩
  | .cons s ss, hok, hι, st =>
    cons_ends (ends_stmt s hok.1 (fun iv h => hι iv (by simp [Stmts.loops, h])) st) (ends_stmts ss hok.2 (fun iv h => hι iv (by simp [Stmts.loops, h])) _)
theorem ends_else {ι : Nat → St → St} : ∀ (ss : Stmts), Stmts.Ok ss → (∀ iv, Stmts.loops iv ss = true → ∀ n st, (ι n st).val iv = st.val iv) →
    ∀ st, ∃ N, ∀ n, N ≤ n → match ss with
      | .nil => True
      | .cons s ss => (if ss.isEmpty && short s then Stmt.toV s else .block (.cons (Stmt.toV s) (Stmts.toVs ss)) : V).exec ι n st = some ((Stmts.cons s ss).exec ι st)
  | .nil, _, _, st => ⟨0, fun _ _ => trivial⟩
  | .cons s ss, hok, hι, st => by
    have h1 := ends_stmt s hok.1 (fun iv h => hι iv (by simp [Stmts.loops, h])) st
    have h2 := ends_stmts ss hok.2 (fun iv h => hι iv (by simp [Stmts.loops, h])) (s.exec ι st)
    cases hc : (ss.isEmpty && short s) with
    | true =>
      simp only [hc, if_true]
      have : ss = .nil := by cases ss with | nil => rfl | cons _ _ => cases hc
      subst this
      exact h1
    | false =>
      simp only [hc, Bool.false_eq_true, if_false]
      exact cons_ends h1 h2
theorem ends_item {ι : Nat → St → St} : ∀ (ss : Stmts), Stmts.Ok ss → (∀ iv, Stmts.loops iv ss = true → ∀ n st, (ι n st).val iv = st.val iv) →
    ∀ st, (Stmts.toItem ss).Ends ι st (ss.exec ι st)
  | .nil, _, _, st => ⟨0, fun _ _ => rfl⟩
  | .cons s ss, hok, hι, st => by
    have h1 := ends_stmt s hok.1 (fun iv h => hι iv (by simp [Stmts.loops, h])) st
    have h2 := ends_stmts ss hok.2 (fun iv h => hι iv (by simp [Stmts.loops, h])) (s.exec ι st)
    unfold Stmts.toItem
    cases hc : (ss.isEmpty && isAssign s) with
    | true =>
      rw [if_pos rfl]
      have : ss = .nil := by cases ss with | nil => rfl | cons _ _ => cases hc
      subst this
      exact h1
    | false =>
      rw [if_neg Bool.false_ne_true]
      exact cons_ends h1 h2
theorem ends_cases {ι : Nat → St → St} : ∀ (cs : Cases), Cases.Ok cs → (∀ iv, Cases.loops iv cs = true → ∀ n st, (ι n st).val iv = st.val iv) →
    ∃ L : List (Option Int × (Stmts × V)), cs.toList = L.map (fun p => (p.1, p.2.1)) ∧ Cases.toVc cs = L.map (fun p => (p.1, p.2.2)) ∧
      ∀ p ∈ L, ∀ st, p.2.2.Ends ι st (p.2.1.exec ι st)
  | .nil, _, _ => ⟨[], rfl, rfl, fun _ h => nomatch h⟩
  | .cons k b cs, hok, hι => by
    obtain ⟨L, h1, h2, h3⟩ := ends_cases cs hok.2 (fun iv h => hι iv (by simp [Cases.loops, h]))
    refine ⟨(k, b, Stmts.toItem b) :: L, by rw [Cases.toList, h1]; rfl, by rw [Cases.toVc, h2]; rfl, fun p hp => ?_⟩
    rcases List.mem_cons.1 hp with e | hp
    · rw [e]
      exact ends_item b hok.1 (fun iv h => hι iv (by simp [Cases.loops, h]))
    · exact h3 p hp
end

/-! ### Which statements can be printed -/

mutual
/-- Every labelled item of every switch has a body. -/
def Stmt.full : Stmt → Bool
  | .ite _ t e => Stmts.full t && Stmts.full e
  | .switch _ cs => Cases.full cs
  | .for_ _ _ _ _ body => Stmts.full body
  | _ => true
def Stmts.full : Stmts → Bool
  | .nil => true
  | .cons s ss => Stmt.full s && Stmts.full ss
def Cases.full : Cases → Bool
  | .nil => true
  | .cons k b cs => (k.isNone || !b.isEmpty) && Stmts.full b && Cases.full cs
end

/-- Printing gives text if `b`, and the exception for a missing case body otherwise. -/
def Prints {α : Type} (b : Bool) (x : Res α) : Prop := if b = true then ∃ a, x = .ok a else x = .throw .var

theorem Prints.map {α β : Type} {b : Bool} {x : Res α} (h : Prints b x) (f : α → β) : Prints b (x.map f) := by
  unfold Prints at *
  split
  · rw [if_pos ‹_›] at h; obtain ⟨a, rfl⟩ := h; exact ⟨_, rfl⟩
  · rw [if_neg ‹_›] at h; rw [h]; rfl

theorem Prints.bind {α β : Type} {b c : Bool} {x : Res α} {f : α → Res β} (h : Prints b x) (hf : ∀ a, Prints c (f a)) : Prints (b && c) (x.bind f) := by
  unfold Prints at *
  cases b
  · rw [if_neg Bool.false_ne_true] at h; rw [Bool.false_and, if_neg Bool.false_ne_true, h]; rfl
  · rw [if_pos rfl] at h; obtain ⟨a, rfl⟩ := h; rw [Bool.true_and, Res.ok_bind]; exact hf a

theorem prints_ok {α : Type} (a : α) : Prints true (.ok a : Res α) := ⟨a, rfl⟩

mutual
theorem prints_stmt (u : Bool) : ∀ s : Stmt, Prints (Stmt.full s) (Stmt.code u s)
  | .assign _ _ _ => prints_ok _
  | .ite c t e => (prints_stmts u t).bind fun _ => (prints_else u e).map _
  | .switch tgt cs => (prints_cases u cs).map _
  | .for_ iv a b s body => (prints_stmts u body).map _
  | .ret _ => prints_ok _
  | .brk => prints_ok _
  | .other _ => prints_ok _
theorem prints_stmts (u : Bool) : ∀ ss : Stmts, Prints (Stmts.full ss) (Stmts.code u ss)
  | .nil => prints_ok _
  | .cons s ss => (prints_stmt u s).bind fun _ => (prints_stmts u ss).map _
theorem prints_else (u : Bool) : ∀ ss : Stmts, Prints (Stmts.full ss) (Stmts.elseCode u ss)
  | .nil => prints_ok _
  | .cons s ss => (prints_stmt u s).bind fun _ => (prints_stmts u ss).map _
theorem prints_item (u : Bool) : ∀ ss : Stmts, Prints (Stmts.full ss) (Stmts.itemCode u ss)
  | .nil => prints_ok _
  | .cons s ss => (prints_stmt u s).bind fun _ => (prints_stmts u ss).map _
theorem prints_cases (u : Bool) : ∀ cs : Cases, Prints (Cases.full cs) (Cases.codes u cs)
  | .nil => prints_ok _
  | .cons k b cs => by
    unfold Cases.full Cases.codes
    rcases hc : (k.isSome && b.isEmpty) with _ | _
    · rw [if_neg Bool.false_ne_true]
      have e : (k.isNone || !b.isEmpty) = true := by
        cases k
        · rfl
        · rw [Option.isSome_some, Bool.true_and] at hc
          rw [hc]; rfl
      rw [e, Bool.true_and]
      exact (prints_item u b).bind fun _ => (prints_cases u cs).map _
    · rw [if_pos rfl]
      have e : (k.isNone || !b.isEmpty) = false := by
        cases k
        · cases hc
        · rw [Option.isSome_some, Bool.true_and] at hc
          rw [hc]; rfl
      rw [e]
      exact rfl
end

/-! ### Property theorems -/

/-- A statement whose labelled items all have bodies is printed, and every other one is refused. -/
theorem printed_iff (u : Bool) (s : Stmt) : (∃ ts, Stmt.code u s = .ok ts) ↔ Stmt.full s = true := by
  have h := prints_stmt u s
  unfold Prints at h
  split at h
  · exact ⟨fun _ => ‹_›, fun _ => h⟩
  · exact ⟨fun he => by obtain ⟨ts, e⟩ := he; rw [h] at e; exact (nomatch e), fun e => absurd e ‹_›⟩

/-- C48, first half, in full: what is printed reads back as exactly one statement, whatever follows, unless that is the keyword `else`. -/
theorem text_reads (u : Bool) (s : Stmt) (ts : List Tok) (h : Stmt.code u s = .ok ts) : ∃ v, ∀ rest, rest.head? ≠ some .else_ → Reads ts rest v :=
  ⟨_, fun rest hr => read_stmt u s ts h rest hr⟩

/-- Reading gives one answer. -/
theorem reads_unique {ts rest : List Tok} {v v' : V} (h : Reads ts rest v) (h' : Reads ts rest v') : v = v' := by
  obtain ⟨N, h⟩ := h
  obtain ⟨M, h'⟩ := h'
  have e := (h (N + M) (by omega)).symm.trans (h' (N + M) (by omega))
  cases e
  rfl

/-- C48 for statements whose loops end as they should, do not assign their own variable and whose case labels differ; statements the model
does not interpret may do anything but assign the variable of a loop around them.  Missing: the other loops, see `not_TextClaim`. -/
theorem stmt_text_partial (u : Bool) (s : Stmt) (ts : List Tok) (h : Stmt.code u s = .ok ts) (hok : Stmt.Ok s) (ι : Nat → St → St)
    (hι : ∀ iv, Stmt.loops iv s = true → ∀ n st, (ι n st).val iv = st.val iv) :
    ∃ v, (∀ rest, rest.head? ≠ some .else_ → Reads ts rest v) ∧ ∀ st, v.Ends ι st (s.exec ι st) :=
  ⟨_, fun rest hr => read_stmt u s ts h rest hr, fun st => ends_stmt s hok hι st⟩

/-- The same for the contents of a block, as in `always_comb begin … end`. -/
theorem block_text_partial (u : Bool) (ss : Stmts) (ts : List Tok) (h : Stmts.code u ss = .ok ts) (hok : Stmts.Ok ss) (ι : Nat → St → St)
    (hι : ∀ iv, Stmts.loops iv ss = true → ∀ n st, (ι n st).val iv = st.val iv) :
    ∃ v, (∀ rest, Reads (.begin_ :: ts ++ [.end_]) rest v) ∧ ∀ st, v.Ends ι st (ss.exec ι st) := by
  refine ⟨.block (Stmts.toVs ss), fun rest => ?_, fun st => ends_stmts ss hok hι st⟩
  obtain ⟨N, hN⟩ := read_stmts u ss ts h rest
  refine ⟨N + 1, fun n hn => ?_⟩
  obtain ⟨m, rfl, hm⟩ := succ_of hn
  have e : Tok.begin_ :: ts ++ [.end_] ++ rest = Tok.begin_ :: (ts ++ .end_ :: rest) := by simp
  rw [e]
  unfold stmt
  simp only
  rw [hN m hm]
  rfl

theorem runLoop_iterations {h : Header} {iv : VarId} {st' : St} : ∀ (n : Nat) (st : St), st.ctl = .run → runLoop h iv some n st = some st' →
    ∃ k l, h.iterations k (st.val iv) = some l
  | 0, _, _, e => by cases e
  | n + 1, st, hc, e => by
    rw [runLoop, if_pos hc] at e
    split at e
    · rename_i hh
      rw [Option.bind_some, if_pos hc] at e
      obtain ⟨k, l, hk⟩ := runLoop_iterations n { st with val := fun v => if v = iv then h.next (st.val iv) else st.val v } hc e
      simp only [if_true] at hk
      exact ⟨k + 1, _, by unfold Header.iterations; rw [if_pos hh, hk, Option.map_some]⟩
    · rename_i hh
      exact ⟨1, [], by unfold Header.iterations; rw [if_neg hh]⟩

/-- C48 fails: an empty loop from 5 down to 0 by 2 is printed as a loop that does not end. -/
theorem not_TextClaim : ¬ TextClaim := by
  intro h
  obtain ⟨v, hv, he⟩ := h true (.for_ 0 5 0 (-2) .nil) _ rfl
  have := reads_unique hv (read_stmt true (.for_ 0 5 0 (-2) .nil) _ rfl [] (by simp [NoElse]))
  subst this
  obtain ⟨N, hN⟩ := he (fun _ st => st) ⟨fun _ => 0, [], .run⟩
  have := hN N (Nat.le_refl _)
  simp only [Stmt.toV, V.exec, Stmts.toVs, Vs.exec, if_true] at this
  obtain ⟨st', hs, -⟩ := Option.map_eq_some_iff.1 this
  obtain ⟨k, l, hk⟩ := runLoop_iterations _ _ rfl hs
  simp only [if_true] at hk
  rw [show (header false 5 0 (-2)).start = 5 from rfl, (ForText.down_by_two_forever k).1] at hk
  cases hk

/-! ### Assertions (property C70)

An assertion carries an optional statement to run when it fails (`set_else`, src/tb.hh:86,107). -/

/-- Immediate assertion, src/codegen.cc:710-724. -/
def valueCode (u : Bool) (c : Expr) : Option Stmt → Res (List Tok)
  | some s => (Stmt.code u s).map fun t => .assert_ :: .lp :: .expr c :: .rp :: .else_ :: t
  | none => .ok [.assert_, .lp, .expr c, .rp, .semi]

/-- The assertion of a property, src/codegen.cc:749-763, for the action `assert`; `p` is the name of the property. -/
def propertyCode (u : Bool) (p : VarId) : Option Stmt → Res (List Tok)
  | some s => (Stmt.code u s).map fun t => .assert_ :: .property_ :: .lp :: .id p :: .rp :: t
  | none => .ok [.assert_, .property_, .lp, .id p, .rp, .semi]

/-- Specification: `action_block ::= statement_or_null | [statement] else statement_or_null` (IEEE 1800-2017 A.6.3): what to do on success
and on failure. -/
def actions (n : Nat) (ts : List Tok) : Option ((Option V × Option V) × List Tok) :=
  match ts with
  | .semi :: r => some ((none, none), r)
  | .else_ :: .semi :: r => some ((none, none), r)
  | .else_ :: r => (stmt n r).map fun p => ((none, some p.1), p.2)
  | _ => (stmt n ts).bind fun p => match p.2 with
    | .else_ :: .semi :: r => some ((some p.1, none), r)
    | .else_ :: r => (stmt n r).map fun q => ((some p.1, some q.1), q.2)
    | _ => some ((some p.1, none), p.2)

/-- The condition or name, and the actions. -/
def readAssert (n : Nat) : List Tok → Option (Tok × (Option V × Option V) × List Tok)
  | .assert_ :: .property_ :: .lp :: .id p :: .rp :: r => (actions n r).map fun q => (.id p, q)
  | .assert_ :: .lp :: .expr c :: .rp :: r => (actions n r).map fun q => (.expr c, q)
  | _ => none

/-- The text in front of `rest` asserts `c`, does `pass` on success and `fail` on failure. -/
def ReadsAssert (ts rest : List Tok) (c : Tok) (pass fail : Option V) : Prop :=
  ∃ N, ∀ n, N ≤ n → readAssert n (ts ++ rest) = some (c, (pass, fail), rest)

/-- Full claim (C70) for an assertion printed by `code` as asserting `c`. -/
def AssertClaim (code : Bool → Option Stmt → Res (List Tok)) (c : Tok) : Prop :=
  ∀ (u : Bool) (s : Stmt) (ts : List Tok), code u (some s) = .ok ts → ∀ rest, rest.head? ≠ some .else_ →
    ∃ v, ReadsAssert ts rest c none (some v) ∧ (Stmt.Ok s → ∀ ι : Nat → St → St, (∀ iv, Stmt.loops iv s = true → ∀ n st, (ι n st).val iv = st.val iv) →
      ∀ st, v.Ends ι st (s.exec ι st))

theorem actions_start {t : Tok} (ht : starts t = true) (r : List Tok) (n : Nat) : actions n (t :: r) = (stmt n (t :: r)).bind fun p => match p.2 with
    | .else_ :: .semi :: r => some ((some p.1, none), r)
    | .else_ :: r => (stmt n r).map fun q => ((some p.1, some q.1), q.2)
    | _ => some ((some p.1, none), p.2) := by
  cases t <;> first | rfl | cases ht

theorem actions_else {t : Tok} (ht : starts t = true) (r : List Tok) (n : Nat) :
    actions n (.else_ :: t :: r) = (stmt n (t :: r)).map fun p => ((none, some p.1), p.2) := by
  cases t <;> first | rfl | cases ht

/-- C70 holds for immediate assertions. -/
theorem assert_value (c : Expr) : AssertClaim (fun u => valueCode u c) (.expr c) := by
  intro u s ts h rest hr
  obtain ⟨t, ht, rfl⟩ := map_ok.1 h
  refine ⟨Stmt.toV s, ?_, fun hok ι hι st => ends_stmt s hok hι st⟩
  obtain ⟨x, r, rfl, hx⟩ := code_starts u s t ht
  obtain ⟨N, hN⟩ := read_stmt u s _ ht rest hr
  refine ⟨N, fun n hn => ?_⟩
  have hN' := hN n hn
  rw [List.cons_append] at hN'
  simp only [List.cons_append, readAssert]
  rw [actions_else hx, hN']
  rfl

/-- C70 fails for properties, whatever the statement: it is read as the action on success, and nothing is done on failure. -/
theorem assert_property_swapped (p : VarId) (u : Bool) (s : Stmt) (ts : List Tok) (h : propertyCode u p (some s) = .ok ts) (rest : List Tok)
    (hr : rest.head? ≠ some .else_) : ∃ v, ReadsAssert ts rest (.id p) (some v) none := by
  obtain ⟨t, ht, rfl⟩ := map_ok.1 h
  refine ⟨Stmt.toV s, ?_⟩
  obtain ⟨x, r, rfl, hx⟩ := code_starts u s t ht
  obtain ⟨N, hN⟩ := read_stmt u s _ ht rest hr
  refine ⟨N, fun n hn => ?_⟩
  have hN' := hN n hn
  rw [List.cons_append] at hN'
  simp only [List.cons_append, readAssert]
  rw [actions_start hx, hN', Option.bind_some]
  cases rest with
  | nil => rfl
  | cons y rest =>
    cases y <;> first | rfl | exact absurd rfl hr

theorem not_assert_property (p : VarId) : ¬ AssertClaim (fun u => propertyCode u p) (.id p) := by
  intro h
  obtain ⟨v, ⟨N, hN⟩, -⟩ := h true (.other 0) _ rfl [] (by simp)
  obtain ⟨w, M, hM⟩ := assert_property_swapped p true (.other 0) _ rfl [] (by simp)
  have e := (hN (N + M) (by omega)).symm.trans (hM (N + M) (by omega))
  cases e

/-! ### Examples -/

/-- The then part of an `if` with an inner `if` keeps its own `else`. -/
def dangling : Stmt := .ite (.const 1 1) (.cons (.ite (.const 1 0) .nil .nil) .nil) (.cons (.other 7) .nil)

example : Stmt.code true dangling = .ok [.if_, .lp, .expr (.const 1 1), .rp, .begin_, .if_, .lp, .expr (.const 1 0), .rp, .begin_, .end_, .end_,
    .else_, .begin_, .other 7, .semi, .end_] := rfl

/-- Labels out of order, no default, an item that is not an assignment. -/
def sample : Stmt := .switch (.var 0 2) (.cons (some 2) (.cons (.other 1) .nil) (.cons (some 0) (.cons .brk .nil) .nil))

example : Stmt.code true sample = .ok [.unique_, .case_, .lp, .expr (.var 0 2), .rp, .label 0, .colon, .begin_, .break_, .semi, .end_,
    .label 2, .colon, .begin_, .other 1, .semi, .end_, .default_, .colon, .begin_, .end_, .endcase] := rfl

theorem sample_ok : Stmt.Ok sample := ⟨by decide, ⟨trivial, trivial⟩, ⟨trivial, trivial⟩, trivial⟩

example : Stmt.full sample = true := rfl

example : Stmt.full (.switch (.var 0 2) (.cons (some 2) .nil .nil)) = false := rfl

def sampleLoop : Stmt := .for_ 3 0 4 1 (.cons (.ite (.var 3 32) (.cons sample .nil) (.cons dangling .nil)) .nil)

example : Stmt.Ok sampleLoop := ⟨⟨by decide, by decide, by decide⟩, .inr (.inl ⟨by decide, by decide, by decide⟩), by decide,
  ⟨⟨sample_ok, trivial⟩, ⟨⟨⟨trivial, trivial⟩, trivial⟩, ⟨trivial, trivial⟩⟩, trivial⟩, trivial⟩

end Kratos.StmtText
