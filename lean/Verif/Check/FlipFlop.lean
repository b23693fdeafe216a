import Verif.Check.Model

/-!
# C110: accepted clocked blocks can be built from flip-flops

Model of `LatchVisitor::check_sequential` (src/analysis.cc:585-636), of its dispatch (src/analysis.cc:516-535) and of
`check_flip_flop_always_ff` (src/analysis.cc:846-886).  Left sides indexed by a variable and calls of statement
functions are not in the model (see `Check.Model`).
-/

namespace Kratos.FlipFlop

open Kratos.Ir Kratos.Check

/-! ## Model -/

/-- An entry of the sensitivity list; `clock`: the variable is a port of type `Clock` (src/analysis.cc:590-593). -/
structure Ev where
  v : VarId
  clock : Bool

/-- `Var::get_var_root_parent` on slices: the variable below, `none` when an expression is sliced. -/
def rootVar : Expr → Option VarId
  | .var v _ => some v
  | .slice e _ _ => rootVar e
  | _ => none

/-- `IfVisitor::has_var` (src/analysis.cc:621-635): `left` and `right` of an expression, not the condition of a
`ConditionalExpr`; the count of a `VarDuplicated` is a constant. -/
def hasVar (r : VarId) : Expr → Bool
  | .var v _ => v == r
  | .const _ _ => false
  | .slice e _ _ => rootVar e == some r
  | .un _ e => hasVar r e
  | .bin _ a b => hasVar r a || hasVar r b
  | .cond _ a b => hasVar r a || hasVar r b
  | .concat a b => hasVar r a || hasVar r b
  | .extend _ e => hasVar r e
  | .dup _ e => hasVar r e

/-- An `IfStmt`. -/
structure If where
  c : Expr
  t : Stmts
  e : Stmts

mutual
/-- The ifs `IfVisitor::visit` is called with (src/analysis.cc:610-615): `visit_root` reaches all depths. -/
def ifsS : Stmt → List If
  | .ite c t e => ⟨c, t, e⟩ :: (ifsB t ++ ifsB e)
  | .switch _ cs => ifsC cs
  | .for_ _ _ _ _ b => ifsB b
  | _ => []
def ifsB : Stmts → List If
  | .nil => []
  | .cons s ss => ifsS s ++ ifsB ss
def ifsC : Cases → List If
  | .nil => []
  | .cons _ b cs => ifsB b ++ ifsC cs
end

/-- A loop whose body may throw. -/
def each {α : Type} (f : α → Res Unit) : List α → Res Unit
  | [] => .ok ()
  | a :: l => (f a).bind fun _ => each f l

/-- `check_stmt_block(if_->else_body(), v, stmts, false)` (src/analysis.cc:549-573). -/
def checkElse (enumOf : Expr → Option (List Nat)) (e : Stmts) (v : VarId) : Res Unit :=
  (checkB enumOf (assignsVar v) false false e).bind fun r => if r then .ok () else .throw .stmt

/-- The orders of the unordered set of ifs and of the unordered map of assigned variables. -/
structure Order where
  ifs : List If → List If
  vars : List VarId → List VarId

/-- `check_sequential` (src/analysis.cc:585-607). -/
def checkSequential (o : Order) (enumOf : Expr → Option (List Nat)) (evs : List Ev) (body : Stmts) : Res Unit :=
  each (fun ev => if ev.clock then .ok () else
    each (fun i => each (checkElse enumOf i.e) (o.vars (assignedB i.t)))
      (o.ifs ((ifsB body).filter fun i => hasVar ev.v i.c))) evs

/-- The first loop of `check_always_ff` (src/analysis.cc:863-871). -/
def hasIf : Stmts → Bool
  | .nil => false
  | .cons (.ite _ _ _) _ => true
  | .cons _ ss => hasIf ss

/-- `check_always_ff` (src/analysis.cc:862-880). -/
def checkAlwaysFf (body : Stmts) : Res Unit :=
  if hasIf body = true ∧ body.length > 1 then .throw .stmt else .ok ()

/-- A top-level statement of a generator. -/
inductive Top where
  | seq (evs : List Ev) (body : Stmts)
  | comb (body : Stmts)
  | other (s : Stmt)

/-- `LatchVisitor::visit` (src/analysis.cc:516-535). -/
def latchTop (o : Order) (enumOf : Expr → Option (List Nat)) : Top → Res Unit
  | .seq evs body => checkSequential o enumOf evs body
  | .comb body => checkLatch enumOf body
  | .other _ => .ok ()

/-- `CheckFlipFlopAlwaysFFVisitor::visit` (src/analysis.cc:848-859). -/
def ffTop : Top → Res Unit
  | .seq _ body => checkAlwaysFf body
  | _ => .ok ()

/-- Both passes on one generator. -/
def checkGen (o : Order) (enumOf : Expr → Option (List Nat)) (tops : List Top) : Res Unit :=
  (each (latchTop o enumOf) tops).bind fun _ => each ffTop tops

/-! ## Specification -/

mutual
/-- Some statement, at any depth, satisfies `P`. -/
def AnyS (P : Stmt → Prop) : Stmt → Prop
  | .ite c t e => P (.ite c t e) ∨ AnyB P t ∨ AnyB P e
  | .switch x cs => P (.switch x cs) ∨ AnyC P cs
  | .for_ i a b s body => P (.for_ i a b s body) ∨ AnyB P body
  | s => P s
def AnyB (P : Stmt → Prop) : Stmts → Prop
  | .nil => False
  | .cons s ss => AnyS P s ∨ AnyB P ss
def AnyC (P : Stmt → Prop) : Cases → Prop
  | .nil => False
  | .cons _ b cs => AnyB P b ∨ AnyC P cs
end

/-- Some statement of the block assigns the register or a part of it. -/
def Drives (v : VarId) (b : Stmts) : Prop := AnyB (fun s => ∃ nb l r, s = .assign nb l r ∧ l.v = v) b

/-- The variable occurs in the expression. -/
def Mentions (r : VarId) : Expr → Prop
  | .var v _ => v = r
  | .const _ _ => False
  | .slice e _ _ => Mentions r e
  | .un _ e => Mentions r e
  | .bin _ a b => Mentions r a ∨ Mentions r b
  | .cond p a b => Mentions r p ∨ Mentions r a ∨ Mentions r b
  | .concat a b => Mentions r a ∨ Mentions r b
  | .extend _ e => Mentions r e
  | .dup _ e => Mentions r e

/-- The condition has no `? :`, and only variables are sliced. -/
def Plain : Expr → Prop
  | .var _ _ => True
  | .const _ _ => True
  | .slice e _ _ => match e with
    | .var _ _ => True
    | .slice e' hi lo => Plain (.slice e' hi lo)
    | _ => False
  | .un _ e => Plain e
  | .bin _ a b => Plain a ∧ Plain b
  | .cond _ _ _ => False
  | .concat a b => Plain a ∧ Plain b
  | .extend _ e => Plain e
  | .dup _ e => Plain e

/-- The shape synthesis tools accept: an `if` on the top level stands alone. -/
def Template (body : Stmts) : Prop :=
  (∃ c t e, body = .cons (.ite c t e) .nil) ∨ ∀ s ∈ body.toList, ∀ c t e, s ≠ .ite c t e

/-- What a reset sets is also assigned when the reset is not active: no register is a constant held by the reset. -/
def ResetDriven (evs : List Ev) (body : Stmts) : Prop :=
  ∀ ev ∈ evs, ev.clock = false → ∀ c t e, AnyB (fun s => s = .ite c t e) body → Mentions ev.v c →
    ∀ v, Drives v t → Drives v e

/-- Every reset of the sensitivity list is tested. -/
def ResetTested (evs : List Ev) (body : Stmts) : Prop :=
  ∀ ev ∈ evs, ev.clock = false → ∃ c t e, AnyB (fun s => s = .ite c t e) body ∧ Mentions ev.v c

/-- All conditions are plain. -/
def PlainIfs (body : Stmts) : Prop := ∀ c t e, AnyB (fun s => s = .ite c t e) body → Plain c

/-- Targets of case statements are enumerations or narrower than 32 bits. -/
def Narrow (enumOf : Expr → Option (List Nat)) (body : Stmts) : Prop :=
  ∀ x cs, AnyB (fun s => s = .switch x cs) body → enumOf x ≠ none ∨ x.width < 32

/-- An order of a container keeps its elements. -/
def Order.Legal (o : Order) : Prop := (∀ l, ∀ x, x ∈ o.ifs l ↔ x ∈ l) ∧ ∀ l, ∀ x, x ∈ o.vars l ↔ x ∈ l

/-- C110 in full: the clocked blocks of an accepted generator have the shape of flip-flops, test their resets and drive
in operation what they reset; and nothing else is refused. -/
def FlipFlopClaim : Prop :=
  ∀ o enumOf evs body, o.Legal →
    (checkGen o enumOf [.seq evs body] = .ok () ↔ Template body ∧ ResetDriven evs body ∧ ResetTested evs body)

/-! ## Lemmas -/

theorem each_ok {α : Type} {f : α → Res Unit} : ∀ {l : List α}, each f l = .ok () ↔ ∀ a ∈ l, f a = .ok () := by
  intro l
  induction l with
  | nil => simp [each]
  | cons a l ih =>
    simp only [each, Res.bind_eq_ok, List.mem_cons, forall_eq_or_imp, ih]
    constructor
    · rintro ⟨u, h1, h2⟩; exact ⟨h1, h2⟩
    · rintro ⟨h1, h2⟩; exact ⟨(), h1, h2⟩

mutual
theorem checkS_drives (enumOf : Expr → Option (List Nat)) (v : VarId) : ∀ (s : Stmt) (r : Bool),
    checkS enumOf (assignsVar v) false false s = .ok r →
      (r = true ↔ AnyS (fun s => ∃ nb l r, s = .assign nb l r ∧ l.v = v) s)
  | .assign nb l x, r, h => by
    simp only [checkS, Res.ok.injEq, assignsVar] at h
    subst h
    simp only [AnyS, beq_iff_eq]
    constructor
    · intro h; exact ⟨nb, l, x, rfl, h⟩
    · rintro ⟨nb', l', x', e, h⟩; cases e; exact h
  | .ite c t e, r, h => by
    simp only [checkS, assignsVar, Bool.false_eq_true, if_false, Res.bind_eq_ok] at h
    obtain ⟨rt, h1, h2⟩ := h
    have i1 := checkB_drives enumOf v t rt h1
    simp only [AnyS, reduceCtorEq, false_and, exists_false, false_or]
    cases rt with
    | true =>
      simp only [if_true, Res.ok.injEq] at h2
      subst h2
      exact ⟨fun _ => Or.inl (i1.1 rfl), fun _ => rfl⟩
    | false =>
      simp only [Bool.false_eq_true, if_false] at h2
      have i2 := checkB_drives enumOf v e r h2
      rw [i2]
      constructor
      · exact Or.inr
      · rintro (h | h)
        · exact absurd (i1.2 h) (by decide)
        · exact h
  | .switch x cs, r, h => by
    simp only [checkS, assignsVar, Bool.false_eq_true, if_false] at h
    simp only [AnyS, reduceCtorEq, false_and, exists_false, false_or]
    cases cs with
    | nil =>
      simp only [Cases.isEmpty, if_true, Res.ok.injEq] at h
      subst h
      simp [AnyC]
    | cons k b cs =>
      simp only [Cases.isEmpty, Bool.false_eq_true, if_false, Res.bind_eq_ok] at h
      obtain ⟨o, h1, h2⟩ := h
      obtain ⟨n, rfl, hn⟩ := checkC_drives enumOf v (.cons k b cs) 0 o h1
      simp only [Res.bind_eq_ok, Res.ok.injEq] at h2
      obtain ⟨_, _, h2⟩ := h2
      subst h2
      rw [decide_eq_true_eq]
      exact hn.2
  | .for_ i a b s body, r, h => by
    simp only [checkS, assignsVar, Bool.false_eq_true, if_false] at h
    simp only [AnyS, reduceCtorEq, false_and, exists_false, false_or]
    exact checkB_drives enumOf v body r h
  | .ret x, r, h => by
    simp only [checkS, assignsVar, Res.ok.injEq] at h
    subst h; simp [AnyS]
  | .brk, r, h => by
    simp only [checkS, assignsVar, Res.ok.injEq] at h
    subst h; simp [AnyS]
  | .other n, r, h => by
    simp only [checkS, assignsVar, Res.ok.injEq] at h
    subst h; simp [AnyS]
theorem checkB_drives (enumOf : Expr → Option (List Nat)) (v : VarId) : ∀ (b : Stmts) (r : Bool),
    checkB enumOf (assignsVar v) false false b = .ok r → (r = true ↔ AnyB (fun s => ∃ nb l r, s = .assign nb l r ∧ l.v = v) b)
  | .nil, r, h => by
    simp only [checkB, Res.ok.injEq] at h
    subst h; simp [AnyB]
  | .cons s ss, r, h => by
    simp only [checkB, Res.bind_eq_ok] at h
    obtain ⟨r1, h1, h2⟩ := h
    have i1 := checkS_drives enumOf v s r1 h1
    simp only [AnyB]
    cases r1 with
    | true =>
      simp only [if_true, Bool.false_and, Bool.false_eq_true, if_false, Res.ok.injEq] at h2
      subst h2
      exact ⟨fun _ => Or.inl (i1.1 rfl), fun _ => rfl⟩
    | false =>
      simp only [Bool.false_eq_true, if_false] at h2
      rw [checkB_drives enumOf v ss r h2]
      constructor
      · exact Or.inr
      · rintro (h | h)
        · exact absurd (i1.2 h) (by decide)
        · exact h
theorem checkC_drives (enumOf : Expr → Option (List Nat)) (v : VarId) : ∀ (cs : Cases) (f : Nat) (o : Option Nat),
    checkC enumOf (assignsVar v) false false cs f = .ok o →
      ∃ n, o = some n ∧ f ≤ n ∧ (f < n ↔ AnyC (fun s => ∃ nb l r, s = .assign nb l r ∧ l.v = v) cs)
  | .nil, f, o, h => by
    simp only [checkC, Res.ok.injEq] at h
    subst h; exact ⟨f, rfl, Nat.le_refl _, by simp [AnyC]⟩
  | .cons k b cs, f, o, h => by
    simp only [checkC, Res.bind_eq_ok] at h
    obtain ⟨r1, h1, h2⟩ := h
    have i1 := checkB_drives enumOf v b r1 h1
    simp only [AnyC]
    cases r1 with
    | true =>
      simp only [if_true] at h2
      obtain ⟨n, rfl, hn, _⟩ := checkC_drives enumOf v cs (f + 1) o h2
      exact ⟨n, rfl, by omega, ⟨fun _ => Or.inl (i1.1 rfl), fun _ => by omega⟩⟩
    | false =>
      simp only [Bool.false_eq_true, if_false] at h2
      obtain ⟨n, rfl, hn, hi⟩ := checkC_drives enumOf v cs f o h2
      refine ⟨n, rfl, hn, ?_⟩
      rw [hi]
      constructor
      · exact Or.inr
      · rintro (h | h)
        · exact absurd (i1.2 h) (by decide)
        · exact h
end

mutual
theorem checkS_total (enumOf : Expr → Option (List Nat)) (v : VarId) : ∀ (s : Stmt),
    (∀ x cs, AnyS (fun s => s = .switch x cs) s → enumOf x ≠ none ∨ x.width < 32) →
    ∃ r, checkS enumOf (assignsVar v) false false s = .ok r
  | .assign nb l x, _ => by simp only [checkS]; exact ⟨_, rfl⟩
  | .ite c t e, h => by
    obtain ⟨r1, h1⟩ := checkB_total enumOf v t fun x cs hx => h x cs (by simp only [AnyS]; exact Or.inr (Or.inl hx))
    obtain ⟨r2, h2⟩ := checkB_total enumOf v e fun x cs hx => h x cs (by simp only [AnyS]; exact Or.inr (Or.inr hx))
    simp only [checkS, assignsVar, Bool.false_eq_true, if_false, h1, Res.ok_bind, h2]
    cases r1 <;> simp
  | .switch x cs, h => by
    simp only [checkS, assignsVar, Bool.false_eq_true, if_false]
    split
    · exact ⟨_, rfl⟩
    · obtain ⟨n, hn⟩ := checkC_total enumOf v cs 0 fun y ds hy => h y ds (by simp only [AnyS]; exact Or.inr hy)
      rw [hn, Res.ok_bind]
      dsimp only
      have hx := h x cs (by simp only [AnyS]; exact Or.inl trivial)
      unfold targetedCases
      cases he : enumOf x with
      | some vs => exact ⟨_, rfl⟩
      | none =>
        rw [he] at hx
        dsimp only
        rw [if_neg (show ¬ x.width ≥ 32 by rcases hx with hx | hx; exact absurd rfl hx; omega), Res.ok_bind]
        exact ⟨_, rfl⟩
  | .for_ i a b s body, h => by
    simp only [checkS, assignsVar, Bool.false_eq_true, if_false]
    exact checkB_total enumOf v body fun x cs hx => h x cs (by simp only [AnyS]; exact Or.inr hx)
  | .ret x, _ => by simp only [checkS]; exact ⟨_, rfl⟩
  | .brk, _ => by simp only [checkS]; exact ⟨_, rfl⟩
  | .other n, _ => by simp only [checkS]; exact ⟨_, rfl⟩
theorem checkB_total (enumOf : Expr → Option (List Nat)) (v : VarId) : ∀ (b : Stmts),
    (∀ x cs, AnyB (fun s => s = .switch x cs) b → enumOf x ≠ none ∨ x.width < 32) →
    ∃ r, checkB enumOf (assignsVar v) false false b = .ok r
  | .nil, _ => ⟨false, by simp only [checkB]⟩
  | .cons s ss, h => by
    obtain ⟨r1, h1⟩ := checkS_total enumOf v s fun x cs hx => h x cs (by simp only [AnyB]; exact Or.inl hx)
    obtain ⟨r2, h2⟩ := checkB_total enumOf v ss fun x cs hx => h x cs (by simp only [AnyB]; exact Or.inr hx)
    simp only [checkB, h1, Res.ok_bind, h2]
    cases r1 <;> simp
theorem checkC_total (enumOf : Expr → Option (List Nat)) (v : VarId) : ∀ (cs : Cases) (f : Nat),
    (∀ x ds, AnyC (fun s => s = .switch x ds) cs → enumOf x ≠ none ∨ x.width < 32) →
    ∃ n, checkC enumOf (assignsVar v) false false cs f = .ok (some n)
  | .nil, f, _ => ⟨f, by simp only [checkC]⟩
  | .cons k b cs, f, h => by
    obtain ⟨r1, h1⟩ := checkB_total enumOf v b fun x ds hx => h x ds (by simp only [AnyC]; exact Or.inl hx)
    have h2 := fun f => checkC_total enumOf v cs f fun x ds hx => h x ds (by simp only [AnyC]; exact Or.inr hx)
    simp only [checkC, h1, Res.ok_bind]
    cases r1 with
    | true => simp only [if_true]; exact h2 _
    | false => simp only [Bool.false_eq_true, if_false]; exact h2 _
end

mutual
theorem mem_ifsS (i : If) : ∀ (s : Stmt), i ∈ ifsS s ↔ AnyS (fun s => s = .ite i.c i.t i.e) s
  | .assign _ _ _ => by simp [ifsS, AnyS]
  | .ite c t e => by
    simp only [ifsS, AnyS, List.mem_cons, List.mem_append, mem_ifsB i t, mem_ifsB i e]
    refine or_congr ?_ Iff.rfl
    constructor
    · rintro rfl; rfl
    · intro h; cases i; cases h; rfl
  | .switch x cs => by simp only [ifsS, AnyS, reduceCtorEq, false_or]; exact mem_ifsC i cs
  | .for_ _ _ _ _ b => by simp only [ifsS, AnyS, reduceCtorEq, false_or]; exact mem_ifsB i b
  | .ret _ => by simp [ifsS, AnyS]
  | .brk => by simp [ifsS, AnyS]
  | .other _ => by simp [ifsS, AnyS]
theorem mem_ifsB (i : If) : ∀ (b : Stmts), i ∈ ifsB b ↔ AnyB (fun s => s = .ite i.c i.t i.e) b
  | .nil => by simp [ifsB, AnyB]
  | .cons s ss => by simp only [ifsB, AnyB, List.mem_append, mem_ifsS i s, mem_ifsB i ss]
theorem mem_ifsC (i : If) : ∀ (cs : Cases), i ∈ ifsC cs ↔ AnyC (fun s => s = .ite i.c i.t i.e) cs
  | .nil => by simp [ifsC, AnyC]
  | .cons k b cs => by simp only [ifsC, AnyC, List.mem_append, mem_ifsB i b, mem_ifsC i cs]
end

mutual
theorem mem_assignedS (v : VarId) : ∀ (s : Stmt), v ∈ assignedS s ↔ AnyS (fun s => ∃ nb l r, s = .assign nb l r ∧ l.v = v) s
  | .assign nb l x => by
    simp only [assignedS, AnyS, List.mem_singleton]
    constructor
    · intro h; exact ⟨nb, l, x, rfl, h.symm⟩
    · rintro ⟨nb', l', x', e, h⟩; cases e; exact h.symm
  | .ite c t e => by simp [assignedS, AnyS, mem_assignedB v t, mem_assignedB v e]
  | .switch x cs => by simp [assignedS, AnyS, mem_assignedC v cs]
  | .for_ _ _ _ _ b => by simp [assignedS, AnyS, mem_assignedB v b]
  | .ret _ => by simp [assignedS, AnyS]
  | .brk => by simp [assignedS, AnyS]
  | .other _ => by simp [assignedS, AnyS]
theorem mem_assignedB (v : VarId) : ∀ (b : Stmts), v ∈ assignedB b ↔ AnyB (fun s => ∃ nb l r, s = .assign nb l r ∧ l.v = v) b
  | .nil => by simp [assignedB, AnyB]
  | .cons s ss => by simp only [assignedB, AnyB, List.mem_append, mem_assignedS v s, mem_assignedB v ss]
theorem mem_assignedC (v : VarId) : ∀ (cs : Cases), v ∈ assignedC cs ↔ AnyC (fun s => ∃ nb l r, s = .assign nb l r ∧ l.v = v) cs
  | .nil => by simp [assignedC, AnyC]
  | .cons k b cs => by simp only [assignedC, AnyC, List.mem_append, mem_assignedB v b, mem_assignedC v cs]
end

theorem rootVar_iff {r : VarId} : ∀ {e : Expr}, rootVar e = some r → Mentions r e
  | .var v w, h => by simp only [rootVar, Option.some.injEq] at h; exact h
  | .slice e _ _, h => rootVar_iff (e := e) h
  | .const _ _, h | .un _ _, h | .bin _ _ _, h | .cond _ _ _, h | .concat _ _, h | .extend _ _, h | .dup _ _, h => by
    simp [rootVar] at h

/-- What the check sees is there. -/
theorem hasVar_mentions {r : VarId} : ∀ {e : Expr}, hasVar r e = true → Mentions r e
  | .var v w, h => by simpa [hasVar, Mentions] using h
  | .const _ _, h => by simp [hasVar] at h
  | .slice e _ _, h => by simp only [hasVar, beq_iff_eq] at h; exact rootVar_iff h
  | .un _ e, h => hasVar_mentions (e := e) h
  | .bin _ a b, h => by
    simp only [hasVar, Bool.or_eq_true] at h
    exact h.imp hasVar_mentions hasVar_mentions
  | .cond p a b, h => by
    simp only [hasVar, Bool.or_eq_true] at h
    exact Or.inr (h.imp hasVar_mentions hasVar_mentions)
  | .concat a b, h => by
    simp only [hasVar, Bool.or_eq_true] at h
    exact h.imp hasVar_mentions hasVar_mentions
  | .extend _ e, h => hasVar_mentions (e := e) h
  | .dup _ e, h => hasVar_mentions (e := e) h

theorem root_slice {r : VarId} : ∀ {e : Expr} {hi lo : Nat}, Plain (.slice e hi lo) → Mentions r e → rootVar e = some r
  | .var v w, _, _, _, h => by simp only [Mentions] at h; simp [rootVar, h]
  | .slice e hi' lo', _, _, hp, h => root_slice (e := e) (hi := hi') (lo := lo') hp h
  | .const _ _, _, _, hp, _ | .un _ _, _, _, hp, _ | .bin _ _ _, _, _, hp, _ | .cond _ _ _, _, _, hp, _
  | .concat _ _, _, _, hp, _ | .extend _ _, _, _, hp, _ | .dup _ _, _, _, hp, _ => by simp [Plain] at hp

theorem mentions_hasVar {r : VarId} : ∀ {e : Expr}, Plain e → Mentions r e → hasVar r e = true
  | .var v w, _, h => by simpa [hasVar, Mentions] using h
  | .const _ _, _, h => h.elim
  | .slice e hi lo, hp, h => by simp only [hasVar, beq_iff_eq]; exact root_slice hp h
  | .un _ e, hp, h => mentions_hasVar (e := e) hp h
  | .bin _ a b, hp, h => by
    simp only [hasVar, Bool.or_eq_true]
    exact h.imp (mentions_hasVar hp.1) (mentions_hasVar hp.2)
  | .cond p a b, hp, _ => hp.elim
  | .concat a b, hp, h => by
    simp only [hasVar, Bool.or_eq_true]
    exact h.imp (mentions_hasVar hp.1) (mentions_hasVar hp.2)
  | .extend _ e, hp, h => mentions_hasVar (e := e) hp h
  | .dup _ e, hp, h => mentions_hasVar (e := e) hp h

theorem hasIf_iff : ∀ (b : Stmts), hasIf b = true ↔ ∃ s ∈ b.toList, ∃ c t e, s = .ite c t e
  | .nil => by simp [hasIf, Stmts.toList]
  | .cons s ss => by
    have ih := hasIf_iff ss
    cases s <;> simp [hasIf, Stmts.toList, ih]

theorem always_ff_iff (body : Stmts) : checkAlwaysFf body = .ok () ↔ Template body := by
  unfold checkAlwaysFf Template
  by_cases h : hasIf body = true
  · obtain ⟨s, hs, c, t, e, rfl⟩ := (hasIf_iff body).1 h
    have hno : ¬ ∀ s ∈ body.toList, ∀ c t e, s ≠ .ite c t e := fun h => h _ hs c t e rfl
    match body, h, hs, hno with
    | .nil, _, hs, _ => cases hs
    | .cons s .nil, _, hs, hno =>
      simp only [Stmts.toList, List.mem_singleton] at hs
      subst hs
      rw [if_neg (by rintro ⟨_, h⟩; simp [Stmts.length] at h)]
      exact ⟨fun _ => Or.inl ⟨c, t, e, rfl⟩, fun _ => rfl⟩
    | .cons s (.cons s' ss), h, hs, hno =>
      rw [if_pos ⟨h, by simp only [Stmts.length]; omega⟩]
      constructor
      · intro h; cases h
      · rintro (⟨c, t, e, h⟩ | h)
        · cases h
        · exact absurd h hno
  · rw [if_neg (fun h' => h h'.1)]
    refine ⟨fun _ => Or.inr ?_, fun _ => rfl⟩
    intro s hs c t e he
    exact h ((hasIf_iff body).2 ⟨s, hs, c, t, e, he⟩)

theorem checkElse_ok {enumOf : Expr → Option (List Nat)} {e : Stmts} {v : VarId} (h : checkElse enumOf e v = .ok ()) :
    Drives v e := by
  simp only [checkElse, Res.bind_eq_ok] at h
  obtain ⟨r, h1, h2⟩ := h
  have := checkB_drives enumOf v e r h1
  cases r with
  | true => exact this.1 rfl
  | false => simp at h2

theorem checkElse_of {enumOf : Expr → Option (List Nat)} {e : Stmts} {v : VarId} (hn : Narrow enumOf e) (h : Drives v e) :
    checkElse enumOf e v = .ok () := by
  obtain ⟨r, h1⟩ := checkB_total enumOf v e hn
  simp only [checkElse, h1, Res.ok_bind]
  rw [if_pos ((checkB_drives enumOf v e r h1).2 h)]

theorem sequential_iff {o : Order} (ho : o.Legal) (enumOf : Expr → Option (List Nat)) (evs : List Ev) (body : Stmts) :
    checkSequential o enumOf evs body = .ok () ↔ ∀ ev ∈ evs, ev.clock = false → ∀ i ∈ ifsB body, hasVar ev.v i.c = true →
      ∀ v, Drives v i.t → checkElse enumOf i.e v = .ok () := by
  unfold checkSequential
  rw [each_ok]
  apply forall_congr'
  intro ev
  apply forall_congr'
  intro _
  cases hc : ev.clock with
  | true => simp
  | false =>
    simp only [Bool.false_eq_true, if_false, forall_const, each_ok, ho.1, List.mem_filter, ho.2, and_imp]
    apply forall_congr'
    intro i
    apply forall_congr'
    intro _
    apply forall_congr'
    intro _
    apply forall_congr'
    intro v
    rw [mem_assignedB]
    rfl

mutual
theorem anyS_trans {P : Stmt → Prop} {c : Expr} {t e : Stmts} (h : AnyB P e) : ∀ (s : Stmt),
    AnyS (fun s => s = .ite c t e) s → AnyS P s
  | .ite c' t' e', hs => by
    simp only [AnyS] at hs ⊢
    rcases hs with hs | hs | hs
    · cases hs; exact Or.inr (Or.inr h)
    · exact Or.inr (Or.inl (anyB_trans h t' hs))
    · exact Or.inr (Or.inr (anyB_trans h e' hs))
  | .switch x cs, hs => by
    simp only [AnyS, reduceCtorEq, false_or] at hs ⊢
    exact Or.inr (anyC_trans h cs hs)
  | .for_ _ _ _ _ b, hs => by
    simp only [AnyS, reduceCtorEq, false_or] at hs ⊢
    exact Or.inr (anyB_trans h b hs)
  | .assign _ _ _, hs => by simp [AnyS] at hs
  | .ret _, hs => by simp [AnyS] at hs
  | .brk, hs => by simp [AnyS] at hs
  | .other _, hs => by simp [AnyS] at hs
theorem anyB_trans {P : Stmt → Prop} {c : Expr} {t e : Stmts} (h : AnyB P e) : ∀ (b : Stmts),
    AnyB (fun s => s = .ite c t e) b → AnyB P b
  | .nil, hb => by simp [AnyB] at hb
  | .cons s ss, hb => by
    simp only [AnyB] at hb ⊢
    exact hb.imp (anyS_trans h s) (anyB_trans h ss)
theorem anyC_trans {P : Stmt → Prop} {c : Expr} {t e : Stmts} (h : AnyB P e) : ∀ (cs : Cases),
    AnyC (fun s => s = .ite c t e) cs → AnyC P cs
  | .nil, hb => by simp [AnyC] at hb
  | .cons k b cs, hb => by
    simp only [AnyC] at hb ⊢
    exact hb.imp (anyB_trans h b) (anyC_trans h cs)
end

theorem gen_iff (o : Order) (enumOf : Expr → Option (List Nat)) (tops : List Top) :
    checkGen o enumOf tops = .ok () ↔ ∀ p ∈ tops, latchTop o enumOf p = .ok () ∧ ffTop p = .ok () := by
  simp only [checkGen, Res.bind_eq_ok, each_ok]
  constructor
  · rintro ⟨_, h1, h2⟩ p hp; exact ⟨each_ok.1 h1 p hp, h2 p hp⟩
  · intro h; exact ⟨(), each_ok.2 fun p hp => (h p hp).1, fun p hp => (h p hp).2⟩

/-! ## Theorems -/

/-- C110, partial (accepted blocks): in every accepted generator, every clocked block has the shape of a flip-flop, and
where conditions are plain what is reset is also driven in operation.  Missing, and false: `untested_reset`,
`ternary_hidden`. -/
theorem accepted_partial {o : Order} (ho : o.Legal) (enumOf : Expr → Option (List Nat)) (tops : List Top)
    (h : checkGen o enumOf tops = .ok ()) {evs : List Ev} {body : Stmts} (hm : .seq evs body ∈ tops) :
    Template body ∧ (PlainIfs body → ResetDriven evs body) := by
  obtain ⟨h1, h2⟩ := (gen_iff o enumOf tops).1 h _ hm
  refine ⟨(always_ff_iff body).1 h2, ?_⟩
  intro hp ev hev hc c t e hi hme v hv
  have := (sequential_iff ho enumOf evs body).1 h1 ev hev hc ⟨c, t, e⟩ ((mem_ifsB _ body).2 hi)
    (mentions_hasVar (hp c t e hi) hme) v hv
  exact checkElse_ok this

/-- C110, partial (nothing else is refused): clocked blocks of that shape that drive what they reset are accepted,
whatever their conditions. -/
theorem complete_partial {o : Order} (ho : o.Legal) (enumOf : Expr → Option (List Nat)) (tops : List Top)
    (h : ∀ p ∈ tops, match p with
      | .seq evs body => Template body ∧ ResetDriven evs body ∧ Narrow enumOf body
      | .comb body => checkLatch enumOf body = .ok ()
      | .other _ => True) : checkGen o enumOf tops = .ok () := by
  rw [gen_iff]
  intro p hp
  have := h p hp
  cases p with
  | other s => exact ⟨rfl, rfl⟩
  | comb body => exact ⟨this, rfl⟩
  | seq evs body =>
    refine ⟨(sequential_iff ho enumOf evs body).2 ?_, (always_ff_iff body).2 this.1⟩
    intro ev hev hc i hi hv v hd
    have hi' := (mem_ifsB i body).1 hi
    refine checkElse_of ?_ (this.2.1 ev hev hc i.c i.t i.e hi' (hasVar_mentions hv) v hd)
    intro x cs hx
    exact this.2.2 x cs (anyB_trans hx body hi')

/-- Both directions for one block. -/
theorem exact_partial {o : Order} (ho : o.Legal) (enumOf : Expr → Option (List Nat)) (evs : List Ev) (body : Stmts)
    (hp : PlainIfs body) (hn : Narrow enumOf body) :
    checkGen o enumOf [.seq evs body] = .ok () ↔ Template body ∧ ResetDriven evs body := by
  constructor
  · intro h
    obtain ⟨h1, h2⟩ := accepted_partial ho enumOf _ h (List.mem_singleton.2 rfl)
    exact ⟨h1, h2 hp⟩
  · rintro ⟨h1, h2⟩
    apply complete_partial ho
    intro p hp'
    rw [List.mem_singleton] at hp'
    subst hp'
    exact ⟨h1, h2, hn⟩

/-! ## Witnesses -/

def noEnum : Expr → Option (List Nat) := fun _ => none

def plainOrder : Order := ⟨fun l => l, fun l => l⟩

theorem plainOrder_legal : plainOrder.Legal := ⟨fun _ _ => Iff.rfl, fun _ _ => Iff.rfl⟩

/-- Variable 0 is the clock, 1 the reset, 2 a data input, 3 and 4 registers. -/
def evs2 : List Ev := [⟨0, true⟩, ⟨1, false⟩]

def setQ (q : VarId) (x : Expr) : Stmt := .assign true ⟨q, 0, 1⟩ x

/-- `if (rst) q <= 0; else q <= d;` -/
def good : Stmts := .cons (.ite (.var 1 1) (.cons (setQ 3 (.const 1 0)) .nil) (.cons (setQ 3 (.var 2 1)) .nil)) .nil

/-- `q <= d;` with the reset in the sensitivity list: the reset is a second clock. -/
def untested : Stmts := .cons (setQ 3 (.var 2 1)) .nil

theorem untested_reset : checkGen plainOrder noEnum [.seq evs2 untested] = .ok () ∧ ¬ ResetTested evs2 untested := by
  refine ⟨rfl, ?_⟩
  intro h
  obtain ⟨c, t, e, h1, _⟩ := h ⟨1, false⟩ (by simp [evs2]) rfl
  simp [untested, AnyB, AnyS, setQ] at h1

/-- `if (rst ? 1 : en) q <= 0; else r <= d;`: the reset is not found in the condition of `? :`. -/
def ternary : Stmts :=
  .cons (.ite (.cond (.var 1 1) (.const 1 1) (.var 5 1)) (.cons (setQ 3 (.const 1 0)) .nil) (.cons (setQ 4 (.var 2 1)) .nil)) .nil

theorem ternary_hidden : checkGen plainOrder noEnum [.seq evs2 ternary] = .ok () ∧ ¬ ResetDriven evs2 ternary := by
  refine ⟨rfl, ?_⟩
  intro h
  have := h ⟨1, false⟩ (by simp [evs2]) rfl _ _ _ (by simp only [ternary, AnyB, AnyS]; exact Or.inl (Or.inl rfl))
    (by simp [Mentions]) 3 (by simp [Drives, AnyB, AnyS, setQ])
  simp [Drives, AnyB, AnyS, setQ] at this

/-- With a plain condition the same block is refused. -/
def undriven : Stmts :=
  .cons (.ite (.var 1 1) (.cons (setQ 3 (.const 1 0)) .nil) (.cons (setQ 4 (.var 2 1)) .nil)) .nil

theorem undriven_refused : checkGen plainOrder noEnum [.seq evs2 undriven] = .throw .stmt := rfl

theorem not_FlipFlopClaim : ¬ FlipFlopClaim := fun h =>
  untested_reset.2 ((h plainOrder noEnum evs2 untested plainOrder_legal).1 untested_reset.1).2.2

example : checkGen plainOrder noEnum [.seq evs2 good] = .ok () := rfl

example : PlainIfs good := by
  intro c t e h
  simp only [good, AnyB, AnyS, setQ, reduceCtorEq, or_false] at h
  cases h
  trivial

/-- A second statement beside the `if` is refused. -/
example : checkGen plainOrder noEnum [.seq evs2 (.cons (setQ 4 (.var 2 1)) good)] = .throw .stmt := rfl

end Kratos.FlipFlop
