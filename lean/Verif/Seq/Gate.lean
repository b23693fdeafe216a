import Verif.Ir.Reads
import Verif.Ir.Lemmas

/-!
# C18, C19: automatic clock enable and synchronous reset (src/optimize.cc:618-924)

The rewriting of one sequential block. Simplifications: casts to a clock, a reset or a clock enable are variables with
that role (a cast to a synchronous reset has no role: src/optimize.cc:631-639 does not look for it); blocks marked
`dont_touch` are left alone and not modelled; neither is the wiring of the new ports.
-/

namespace Kratos.Gate

open Kratos.Ir

/-- `PortType`, src/port.hh. -/
inductive Role where
  | data | clock | asyncReset | clockEnable | reset | valid
  deriving DecidableEq, Repr

/-- `has_port_type` (src/optimize.cc:618-641). A duplication has a constant as right operand. -/
def hasType (ρ : VarId → Role) (t : Role) : Expr → Bool
  | .var v _ => decide (ρ v = t)
  | .un _ e => hasType ρ t e
  | .extend _ e => hasType ρ t e
  | .bin _ l r => hasType ρ t l && hasType ρ t r
  | .cond _ l r => hasType ρ t l && hasType ρ t r
  | .concat l r => hasType ρ t l && hasType ρ t r
  | .dup _ _ => false
  | .slice _ _ _ => false
  | .const _ _ => false

mutual
/-- `Stmt::clone` (src/stmt.cc: 96-98 default, 217-222 assignment, 332-345 if, 397-405 for, 642-653 switch, 886 function
call). `bad n`: statement `n` is a function call, which cannot be cloned. -/
def Stmt.clone (bad : Nat → Bool) : Stmt → Res Stmt
  | .assign nb l r => .ok (.assign nb l r)
  | .ite c t e => (Stmts.clone bad t).bind fun t' => (Stmts.clone bad e).bind fun e' => .ok (.ite c t' e')
  | .switch tgt cs => (Cases.clone bad cs).bind fun cs' => .ok (.switch tgt cs')
  | .for_ iv a b s body => (Stmts.clone bad body).bind fun body' => .ok (.for_ iv a b s body')
  | .ret e => .ok (.ret e)
  | .brk => .ok .brk
  | .other n => if bad n then .throw .user else .ok (.other n)
/-- `clone_block` (src/stmt.cc:483-490). -/
def Stmts.clone (bad : Nat → Bool) : Stmts → Res Stmts
  | .nil => .ok .nil
  | .cons s ss => (Stmt.clone bad s).bind fun s' => (Stmts.clone bad ss).bind fun ss' => .ok (.cons s' ss')
def Cases.clone (bad : Nat → Bool) : Cases → Res Cases
  | .nil => .ok .nil
  | .cons k b cs => (Stmts.clone bad b).bind fun b' => (Cases.clone bad cs).bind fun cs' => .ok (.cons k b' cs')
end

/-- `create_if_stmt_wrapper(block, port, true)` (src/optimize.cc:643-656). -/
def wrap (bad : Nat → Bool) (port : VarId) (ss : Stmts) : Res Stmt :=
  (Stmts.clone bad ss).bind fun ss' => .ok (.ite (.var port 1) ss' .nil)

/-- The predicate test of `has_clk_en_stmt` (src/optimize.cc:752-763). -/
def isEn (ρ : VarId → Role) (en : VarId) : Expr → Bool
  | .var v _ => decide (ρ v = .clockEnable) || decide (v = en)
  | _ => false

/-- `has_clk_en_stmt` (src/optimize.cc:747-767). -/
def hasEn (ρ : VarId → Role) (en : VarId) : Stmts → Bool
  | .cons (.ite c _ _) _ => isEn ρ en c
  | _ => false

/-- The second half of `InsertClockIRVisitor::visit(SequentialStmtBlock*)` (src/optimize.cc:732-738). -/
def gateAll (ρ : VarId → Role) (bad : Nat → Bool) (en : VarId) (ss : Stmts) : Res Stmts :=
  if hasEn ρ en ss then .ok ss else (wrap bad en ss).bind fun s => .ok (.cons s .nil)

/-- A reset condition (src/optimize.cc:722-723). -/
def isReset (ρ : VarId → Role) (c : Expr) : Bool := hasType ρ .asyncReset c || hasType ρ .reset c

/-- `InsertClockIRVisitor::visit(SequentialStmtBlock*)` (src/optimize.cc:707-740). -/
def insertEn (ρ : VarId → Role) (bad : Nat → Bool) (en : VarId) : Stmts → Res Stmts
  | .nil => .ok .nil
  | .cons (.ite c t e) .nil =>
    if isReset ρ c then
      if hasEn ρ en e then .ok (.cons (.ite c t e) .nil)
      else (wrap bad en e).bind fun s => .ok (.cons (.ite c t (.cons s .nil)) .nil)
    else gateAll ρ bad en (.cons (.ite c t e) .nil)
  | ss => gateAll ρ bad en ss

/-! ### C69: cloning -/

mutual
/-- **C69**: a statement that can be cloned is copied exactly. -/
theorem clone_eq (bad : Nat → Bool) : ∀ (s s' : Stmt), Stmt.clone bad s = .ok s' → s' = s
  | .assign _ _ _, _, h => by injection h with h; exact h.symm
  | .ite c t e, s', h => by
    simp only [Stmt.clone, Res.bind_eq_ok] at h
    obtain ⟨t', ht, e', he, h⟩ := h
    injection h with h
    rw [← h, clones_eq bad t t' ht, clones_eq bad e e' he]
  | .switch tgt cs, s', h => by
    simp only [Stmt.clone, Res.bind_eq_ok] at h
    obtain ⟨t', ht, h⟩ := h
    injection h with h
    rw [← h, clonec_eq bad cs t' ht]
  | .for_ iv a b s body, s', h => by
    simp only [Stmt.clone, Res.bind_eq_ok] at h
    obtain ⟨t', ht, h⟩ := h
    injection h with h
    rw [← h, clones_eq bad body t' ht]
  | .ret _, _, h => by injection h with h; exact h.symm
  | .brk, _, h => by injection h with h; exact h.symm
  | .other n, s', h => by
    simp only [Stmt.clone] at h
    split at h
    · cases h
    · injection h with h; exact h.symm
theorem clones_eq (bad : Nat → Bool) : ∀ (s s' : Stmts), Stmts.clone bad s = .ok s' → s' = s
  | .nil, _, h => by injection h with h; exact h.symm
  | .cons s ss, s', h => by
    simp only [Stmts.clone, Res.bind_eq_ok] at h
    obtain ⟨t', ht, e', he, h⟩ := h
    injection h with h
    rw [← h, clone_eq bad s t' ht, clones_eq bad ss e' he]
theorem clonec_eq (bad : Nat → Bool) : ∀ (s s' : Cases), Cases.clone bad s = .ok s' → s' = s
  | .nil, _, h => by injection h with h; exact h.symm
  | .cons k b cs, s', h => by
    simp only [Cases.clone, Res.bind_eq_ok] at h
    obtain ⟨t', ht, e', he, h⟩ := h
    injection h with h
    rw [← h, clones_eq bad b t' ht, clonec_eq bad cs e' he]
end

theorem wrap_eq {bad : Nat → Bool} {port : VarId} {ss : Stmts} {s : Stmt} (h : wrap bad port ss = .ok s) : s = .ite (.var port 1) ss .nil := by
  simp only [wrap, Res.bind_eq_ok] at h
  obtain ⟨ss', h1, h⟩ := h
  injection h with h
  rw [← h, clones_eq bad ss ss' h1]

/-! ### Specification of C18 -/

/-- The bit `v` is set. -/
def On (v : VarId) (st : St) : Prop := st.val v % 2 ^ 1 ≠ 0

/-- A condition built by operators from signals of kind `t` only. -/
inductive CondOf (ρ : VarId → Role) (t : Role) : Expr → Prop
  | var {v w} : ρ v = t → CondOf ρ t (.var v w)
  | un {o e} : CondOf ρ t e → CondOf ρ t (.un o e)
  | extend {w e} : CondOf ρ t e → CondOf ρ t (.extend w e)
  | bin {o l r} : CondOf ρ t l → CondOf ρ t r → CondOf ρ t (.bin o l r)
  | cond {c l r} : CondOf ρ t l → CondOf ρ t r → CondOf ρ t (.cond c l r)
  | concat {l r} : CondOf ρ t l → CondOf ρ t r → CondOf ρ t (.concat l r)

/-- A reset condition, of either kind. -/
def ResetCond (ρ : VarId → Role) (c : Expr) : Prop := CondOf ρ .asyncReset c ∨ CondOf ρ .reset c

/-- The first statement of the block is a reset and it is active. -/
def Resetting (ρ : VarId → Role) (ss : Stmts) (st : St) : Prop :=
  ∃ c t e rest, ss = .cons (.ite c t e) rest ∧ ResetCond ρ c ∧ c.eval st.val ≠ 0

/-- `has_port_type` recognises exactly these conditions. -/
theorem hasType_iff (ρ : VarId → Role) (t : Role) : ∀ e, hasType ρ t e = true ↔ CondOf ρ t e
  | .var v w => by
    simp only [hasType, decide_eq_true_eq]
    exact ⟨.var, fun h => by cases h; assumption⟩
  | .const _ _ => ⟨fun h => (by cases h), fun h => (by cases h)⟩
  | .slice _ _ _ => ⟨fun h => (by cases h), fun h => (by cases h)⟩
  | .dup _ _ => ⟨fun h => (by cases h), fun h => (by cases h)⟩
  | .un _ e => ⟨fun h => .un ((hasType_iff ρ t e).1 h), fun h => by cases h with | un h => exact (hasType_iff ρ t e).2 h⟩
  | .extend _ e => ⟨fun h => .extend ((hasType_iff ρ t e).1 h), fun h => by cases h with | extend h => exact (hasType_iff ρ t e).2 h⟩
  | .bin _ l r => by
    simp only [hasType, Bool.and_eq_true, hasType_iff ρ t l, hasType_iff ρ t r]
    exact ⟨fun h => .bin h.1 h.2, fun h => by cases h with | bin h1 h2 => exact ⟨h1, h2⟩⟩
  | .cond _ l r => by
    simp only [hasType, Bool.and_eq_true, hasType_iff ρ t l, hasType_iff ρ t r]
    exact ⟨fun h => .cond h.1 h.2, fun h => by cases h with | cond h1 h2 => exact ⟨h1, h2⟩⟩
  | .concat l r => by
    simp only [hasType, Bool.and_eq_true, hasType_iff ρ t l, hasType_iff ρ t r]
    exact ⟨fun h => .concat h.1 h.2, fun h => by cases h with | concat h1 h2 => exact ⟨h1, h2⟩⟩

theorem isReset_iff (ρ : VarId → Role) (c : Expr) : isReset ρ c = true ↔ ResetCond ρ c := by
  rw [isReset, Bool.or_eq_true, hasType_iff, hasType_iff]; rfl

/-- The reset values of the block. -/
def resetBody : Stmts → Stmts
  | .cons (.ite _ t _) _ => t
  | _ => .nil

/-- Full claim of C18 for a block and its rewriting. -/
structure EnableClaim (ρ : VarId → Role) (en : VarId) (ss ss' : Stmts) : Prop where
  /-- enabled: as before -/
  on : ∀ ι st, st.ctl = .run → On en st → ss'.exec ι st = ss.exec ι st
  /-- disabled, no reset: nothing happens -/
  off : ∀ ι st, st.ctl = .run → ¬ On en st → ¬ Resetting ρ ss st → ss'.exec ι st = st
  /-- a reset loads the reset values, whatever the enable -/
  rst : ∀ ι st, st.ctl = .run → Resetting ρ ss st → ∃ rest, (ss'.exec ι st).nba = ((resetBody ss).exec ι st).nba ++ rest

theorem exec_en_on (ι : Nat → St → St) (en : VarId) (ss : Stmts) (st : St) (h : st.ctl = .run) (ho : On en st) :
    (Stmt.ite (.var en 1) ss .nil).exec ι st = ss.exec ι st := by
  have ho' : Expr.eval st.val (.var en 1) ≠ 0 := ho
  simp only [Stmt.exec, guardRun, h, if_true]
  rw [if_pos ho']

theorem exec_en_off (ι : Nat → St → St) (en : VarId) (ss : Stmts) (st : St) (h : st.ctl = .run) (ho : ¬ On en st) :
    (Stmt.ite (.var en 1) ss .nil).exec ι st = st := by
  have ho' : ¬ Expr.eval st.val (.var en 1) ≠ 0 := ho
  simp only [Stmt.exec, guardRun, h, if_true]
  rw [if_neg ho', Stmts.exec_nil]

/-- The block is left alone because its (else) body already starts with a clock enable. -/
def AlreadyEnabled (ρ : VarId → Role) (en : VarId) : Stmts → Bool
  | .cons (.ite c t e) .nil => if isReset ρ c then hasEn ρ en e else hasEn ρ en (.cons (.ite c t e) .nil)
  | ss => hasEn ρ en ss

/-- Either the block is a single reset `if` (the only form in which the pass looks for one), or it does not start
with a reset. -/
def ResetAlone (ρ : VarId → Role) : Stmts → Prop
  | .cons (.ite c _ _) (.cons _ _) => ¬ ResetCond ρ c
  | _ => True

/-- **C18, enabled**: for every block and every state in which the enable is set, the rewritten block does what the
original does. -/
theorem enabled_same {ρ : VarId → Role} {bad : Nat → Bool} {en : VarId} {ss ss' : Stmts} (h : insertEn ρ bad en ss = .ok ss')
    (ι : Nat → St → St) (st : St) (hr : st.ctl = .run) (ho : On en st) : ss'.exec ι st = ss.exec ι st := by
  have gate : ∀ ss, gateAll ρ bad en ss = .ok ss' → ss'.exec ι st = ss.exec ι st := by
    intro ss h
    unfold gateAll at h
    split at h
    · injection h with h; rw [h]
    · simp only [Res.bind_eq_ok] at h
      obtain ⟨s, h1, h⟩ := h
      injection h with h
      rw [← h, wrap_eq h1, Stmts.exec_single, exec_en_on ι en ss st hr ho]
  unfold insertEn at h
  split at h
  · injection h with h; rw [h]
  · split at h
    · split at h
      · injection h with h; rw [h]
      · simp only [Res.bind_eq_ok] at h
        obtain ⟨s, h1, h⟩ := h
        injection h with h
        rw [← h, wrap_eq h1, Stmts.exec_single, Stmts.exec_single]
        simp only [Stmt.exec, guardRun, hr, if_true]
        split
        · rfl
        · rw [Stmts.exec_single, exec_en_on ι en _ st hr ho]
    · exact gate _ h
  · exact gate _ h

/-- **C18, partial**: a block that is not already guarded by hand and whose reset, if it has one, is the only statement:
when disabled nothing changes, enabled it behaves as before, and the reset is not gated. Missing: hand-made guards that do
not cover the whole block (`second_statement_not_gated`) and resets followed by other statements
(`reset_gated`). -/
theorem clock_enable_partial {ρ : VarId → Role} {bad : Nat → Bool} {en : VarId} {ss ss' : Stmts} (h : insertEn ρ bad en ss = .ok ss')
    (hg : AlreadyEnabled ρ en ss = false) (ha : ResetAlone ρ ss) : EnableClaim ρ en ss ss' := by
  have gate : ∀ ss, gateAll ρ bad en ss = .ok ss' → hasEn ρ en ss = false → ss' = .cons (.ite (.var en 1) ss .nil) .nil := by
    intro ss h hg
    unfold gateAll at h
    rw [hg] at h
    simp only [Bool.false_eq_true, if_false, Res.bind_eq_ok] at h
    obtain ⟨s, h1, h⟩ := h
    injection h with h
    rw [← h, wrap_eq h1]
  refine ⟨fun ι st hr ho => enabled_same h ι st hr ho, ?_, ?_⟩
  · intro ι st hr ho hn
    unfold insertEn at h
    unfold AlreadyEnabled at hg
    split at h
    · injection h with h; rw [← h, Stmts.exec_nil]
    · simp only at hg
      split at h
      · rename_i c t e hc
        rw [if_pos hc] at hg
        rw [hg] at h
        simp only [Bool.false_eq_true, if_false, Res.bind_eq_ok] at h
        obtain ⟨s, h1, h⟩ := h
        injection h with h
        rw [← h, wrap_eq h1, Stmts.exec_single]
        have hc0 : ¬ c.eval st.val ≠ 0 := fun hc' => hn ⟨c, t, e, _, rfl, (isReset_iff ρ c).1 hc, hc'⟩
        simp only [Stmt.exec, guardRun, hr, if_true]
        rw [if_neg hc0, Stmts.exec_single, exec_en_off ι en _ st hr ho]
      · rename_i c t e hc
        rw [if_neg hc] at hg
        rw [gate _ h hg, Stmts.exec_single, exec_en_off ι en _ st hr ho]
    · split at hg
      · rename_i hne; exact absurd rfl (hne _ _ _)
      · rw [gate _ h hg, Stmts.exec_single, exec_en_off ι en _ st hr ho]
  · rintro ι st hr ⟨c, t, e, rest, rfl, hc, hc'⟩
    cases rest with
    | nil =>
      simp only [insertEn, (isReset_iff ρ c).2 hc, if_true] at h
      refine ⟨[], ?_⟩
      rw [List.append_nil]
      split at h
      · injection h with h
        rw [← h, Stmts.exec_single]
        simp only [Stmt.exec, guardRun, hr, if_true, resetBody]
        rw [if_pos hc']
      · simp only [Res.bind_eq_ok] at h
        obtain ⟨s, h1, h⟩ := h
        injection h with h
        rw [← h, Stmts.exec_single]
        simp only [Stmt.exec, guardRun, hr, if_true, resetBody]
        rw [if_pos hc']
    | cons s rest =>
      exact absurd hc ha

/-! ### C19: synchronous reset -/

/-- The test of src/optimize.cc:893-898: the body starts with a synchronous reset. -/
def startsWithReset (ρ : VarId → Role) : Stmts → Bool
  | .cons (.ite q _ _) _ => hasType ρ .reset q
  | _ => false

/-- src/optimize.cc:902-903, 913-915: `if (rst) <copy of the reset body> else <copy of the body>`. -/
def syncIf (bad : Nat → Bool) (rst : VarId) (t body : Stmts) : Res Stmt :=
  (Stmts.clone bad body).bind fun body' => (Stmts.clone bad t).bind fun t' => .ok (.ite (.var rst 1) t' body')

/-- Around the whole else body (src/optimize.cc:913-917). -/
def resetOuter (bad : Nat → Bool) (rst : VarId) (c : Expr) (t e : Stmts) : Res Stmts :=
  (syncIf bad rst t e).bind fun s => .ok (.cons (.ite c t (.cons s .nil)) .nil)

/-- Inside the clock enable (src/optimize.cc:893-906). -/
def resetInner (ρ : VarId → Role) (bad : Nat → Bool) (rst : VarId) (c : Expr) (t : Stmts) (p : Expr) (t2 e2 : Stmts) : Res Stmts :=
  if startsWithReset ρ t2 then .ok (.cons (.ite c t (.cons (.ite p t2 e2) .nil)) .nil)
  else (syncIf bad rst t t2).bind fun s => .ok (.cons (.ite c t (.cons (.ite p (.cons s .nil) e2) .nil)) .nil)

/-- `InsertSyncReset::inject_reset_logic` (src/optimize.cc:866-918). -/
def injectReset (ρ : VarId → Role) (bad : Nat → Bool) (over : Bool) (rst : VarId) : Stmts → Res Stmts
  | .cons (.ite c t (.cons (.ite p t2 e2) .nil)) .nil =>
    if !hasType ρ .asyncReset c || hasType ρ .reset c then .ok (.cons (.ite c t (.cons (.ite p t2 e2) .nil)) .nil)
    else if hasType ρ .clockEnable p && !over then resetInner ρ bad rst c t p t2 e2
    else if hasType ρ .reset p then .ok (.cons (.ite c t (.cons (.ite p t2 e2) .nil)) .nil)
    else resetOuter bad rst c t (.cons (.ite p t2 e2) .nil)
  | .cons (.ite c t e) .nil =>
    if !hasType ρ .asyncReset c || hasType ρ .reset c then .ok (.cons (.ite c t e) .nil)
    else resetOuter bad rst c t e
  | ss => .ok ss

/-- A clock enable around the whole non-reset part of a block. -/
def enableOf (ρ : VarId → Role) : Stmts → Option Expr
  | .cons (.ite _ _ (.cons (.ite p _ _) .nil)) .nil => if hasType ρ .clockEnable p then some p else none
  | _ => none

/-- The synchronous reset reaches the registers: always if it is over the clock enable, else when the enable is on. -/
def Reaches (ρ : VarId → Role) (over : Bool) (ss : Stmts) (st : St) : Prop :=
  over = true ∨ ∀ p, enableOf ρ ss = some p → p.eval st.val ≠ 0

/-- The block has an asynchronous reset. -/
def HasAsync (ρ : VarId → Role) : Stmts → Bool
  | .cons (.ite c _ _) _ => hasType ρ .asyncReset c
  | _ => false

/-- Full claim of C19 for a block and its rewriting. -/
structure SyncClaim (ρ : VarId → Role) (over : Bool) (rst : VarId) (ss ss' : Stmts) : Prop where
  /-- not asserted: as before -/
  off : ∀ ι st, st.ctl = .run → ¬ On rst st → ss'.exec ι st = ss.exec ι st
  /-- asserted: the reset values are loaded -/
  on : ∀ ι st, st.ctl = .run → On rst st → Reaches ρ over ss st → ss'.exec ι st = (resetBody ss).exec ι st
  /-- asserted with the clock disabled and the reset under it: nothing happens -/
  dis : ∀ ι st, st.ctl = .run → On rst st → ¬ Reaches ρ over ss st → ss'.exec ι st = ss.exec ι st

theorem syncIf_eq {bad : Nat → Bool} {rst : VarId} {t body : Stmts} {s : Stmt} (h : syncIf bad rst t body = .ok s) : s = .ite (.var rst 1) t body := by
  simp only [syncIf, Res.bind_eq_ok] at h
  obtain ⟨b', h1, t', h2, h⟩ := h
  injection h with h
  rw [← h, clones_eq bad _ _ h1, clones_eq bad _ _ h2]

theorem exec_sync_on (ι : Nat → St → St) (rst : VarId) (t e : Stmts) (st : St) (h : st.ctl = .run) (ho : On rst st) :
    (Stmt.ite (.var rst 1) t e).exec ι st = t.exec ι st := by
  have ho' : Expr.eval st.val (.var rst 1) ≠ 0 := ho
  simp only [Stmt.exec, guardRun, h, if_true]
  rw [if_pos ho']

theorem exec_sync_off (ι : Nat → St → St) (rst : VarId) (t e : Stmts) (st : St) (h : st.ctl = .run) (ho : ¬ On rst st) :
    (Stmt.ite (.var rst 1) t e).exec ι st = e.exec ι st := by
  have ho' : ¬ Expr.eval st.val (.var rst 1) ≠ 0 := ho
  simp only [Stmt.exec, guardRun, h, if_true]
  rw [if_neg ho']

/-- **C19, not asserted**: for every block, the rewritten block does what the original does as long as the new reset is
not asserted. -/
theorem sync_off_same {ρ : VarId → Role} {bad : Nat → Bool} {over : Bool} {rst : VarId} {ss ss' : Stmts}
    (h : injectReset ρ bad over rst ss = .ok ss') (ι : Nat → St → St) (st : St) (hr : st.ctl = .run) (ho : ¬ On rst st) :
    ss'.exec ι st = ss.exec ι st := by
  have outer : ∀ c t e, resetOuter bad rst c t e = .ok ss' → ss'.exec ι st = (Stmts.cons (.ite c t e) .nil).exec ι st := by
    intro c t e h
    simp only [resetOuter, Res.bind_eq_ok] at h
    obtain ⟨s, h1, h⟩ := h
    injection h with h
    rw [← h, syncIf_eq h1, Stmts.exec_single, Stmts.exec_single]
    simp only [Stmt.exec, guardRun, hr, if_true]
    split
    · rfl
    · rw [Stmts.exec_single, exec_sync_off ι rst _ _ st hr ho]
  unfold injectReset at h
  split at h
  · rename_i c t p t2 e2
    split at h
    · injection h with h; rw [← h]
    split at h
    · unfold resetInner at h
      split at h
      · injection h with h; rw [← h]
      · simp only [Res.bind_eq_ok] at h
        obtain ⟨s, h1, h⟩ := h
        injection h with h
        rw [← h, syncIf_eq h1]
        simp only [Stmts.exec_single, Stmt.exec, guardRun, hr, if_true]
        split
        · rfl
        split
        · have := exec_sync_off ι rst t t2 st hr ho
          simp only [Stmt.exec, guardRun, hr, if_true] at this
          exact this
        · rfl
    split at h
    · injection h with h; rw [← h]
    · exact outer _ _ _ h
  · split at h
    · injection h with h; rw [← h]
    · exact outer _ _ _ h
  · injection h with h; rw [← h]

/-- The pass does something to this block: a single `if` on an asynchronous reset, in which no synchronous reset has been
put by hand. -/
def Plain (ρ : VarId → Role) (over : Bool) : Stmts → Prop
  | .cons (.ite c _ (.cons (.ite p t2 _) .nil)) .nil => hasType ρ .asyncReset c = true ∧ hasType ρ .reset c = false ∧
      (if hasType ρ .clockEnable p && !over then startsWithReset ρ t2 = false else hasType ρ .reset p = false)
  | .cons (.ite c _ _) .nil => hasType ρ .asyncReset c = true ∧ hasType ρ .reset c = false
  | _ => False

/-- **C19, partial**: for every block that is a single `if` on an asynchronous reset without a hand-made synchronous
reset: with the new reset asserted the block does exactly what its asynchronous reset branch does (under the clock enable
if there is one and the reset is not declared to be over it), otherwise what it did before. Missing: blocks with
statements after the reset (`no_sync_reset`). -/
theorem sync_reset_partial {ρ : VarId → Role} {bad : Nat → Bool} {over : Bool} {rst : VarId} {ss ss' : Stmts}
    (h : injectReset ρ bad over rst ss = .ok ss') (hp : Plain ρ over ss) : SyncClaim ρ over rst ss ss' := by
  have outer : ∀ c t e, resetOuter bad rst c t e = .ok ss' → ∀ ι st, st.ctl = .run → On rst st → ss'.exec ι st = t.exec ι st := by
    intro c t e h ι st hr ho
    simp only [resetOuter, Res.bind_eq_ok] at h
    obtain ⟨s, h1, h⟩ := h
    injection h with h
    rw [← h, syncIf_eq h1, Stmts.exec_single]
    simp only [Stmt.exec, guardRun, hr, if_true]
    split
    · rfl
    · rw [Stmts.exec_single, exec_sync_on ι rst _ _ st hr ho]
  refine ⟨fun ι st hr ho => sync_off_same h ι st hr ho, ?_, ?_⟩
  all_goals
    intro ι st hr ho hre
    unfold injectReset at h
    unfold Plain at hp
    split at h
  -- with a nested `if`
  · rename_i c t p t2 e2
    simp only at hp
    obtain ⟨h1, h2, h3⟩ := hp
    rw [h1, h2] at h
    simp only [Bool.not_true, Bool.or_false, Bool.false_eq_true, if_false] at h
    split at h
    · rename_i hce
      rw [if_pos hce] at h3
      unfold resetInner at h
      rw [h3] at h
      simp only [Bool.false_eq_true, if_false, Res.bind_eq_ok] at h
      obtain ⟨s, h4, h⟩ := h
      injection h with h
      rw [← h, syncIf_eq h4]
      have hce' : hasType ρ .clockEnable p = true ∧ over = false := by
        cases hh : hasType ρ .clockEnable p <;> cases over <;> simp_all
      have hpn : p.eval st.val ≠ 0 := by
        rcases hre with hre | hre
        · rw [hce'.2] at hre; cases hre
        · exact hre p (by simp [enableOf, hce'.1])
      simp only [Stmts.exec_single, Stmt.exec, guardRun, hr, if_true, resetBody]
      split
      · rfl
      · have := exec_sync_on ι rst t t2 st hr ho
        simp only [Stmt.exec, guardRun, hr, if_true] at this
        exact this
    · rename_i hce
      rw [if_neg hce] at h3
      rw [h3] at h
      simp only [Bool.false_eq_true, if_false] at h
      exact outer _ _ _ h ι st hr ho
  · rename_i hne
    split at hp
    · rename_i heq; injection heq with heq _; injection heq with _ _ e3; exact (hne _ _ _ e3).elim
    · rename_i c t e _ heq
      injection heq with heq _
      injection heq with e1 e2 e3
      subst e1 e2 e3
      rw [hp.1, hp.2] at h
      simp only [Bool.not_true, Bool.or_false, Bool.false_eq_true, if_false] at h
      exact outer _ _ _ h ι st hr ho
    · exact hp.elim
  · split at hp
    · rename_i hne; exact absurd rfl (hne _ _ _)
    · rename_i hne; exact absurd rfl (hne _ _ _)
    · exact hp.elim
  · rename_i c t p t2 e2
    simp only at hp
    obtain ⟨h1, h2, h3⟩ := hp
    rw [h1, h2] at h
    simp only [Bool.not_true, Bool.or_false, Bool.false_eq_true, if_false] at h
    have hov : over = false := by
      cases over
      · rfl
      · exact absurd (Or.inl rfl) hre
    have hex : hasType ρ .clockEnable p = true ∧ ¬ p.eval st.val ≠ 0 := by
      cases hh : hasType ρ .clockEnable p
      · exact absurd (Or.inr (fun q hq => by simp [enableOf, hh] at hq)) hre
      · refine ⟨rfl, fun hpn => hre (Or.inr fun q hq => ?_)⟩
        simp only [enableOf, hh, if_true, Option.some.injEq] at hq
        rw [← hq]; exact hpn
    rw [hex.1, hov] at h h3
    simp only [Bool.not_false, Bool.and_self, if_true] at h h3
    unfold resetInner at h
    rw [h3] at h
    simp only [Bool.false_eq_true, if_false, Res.bind_eq_ok] at h
    obtain ⟨s, h4, h⟩ := h
    injection h with h
    rw [← h]
    simp only [Stmts.exec_single, Stmt.exec, guardRun, hr, if_true]
    split
    · rfl
    · rw [if_neg hex.2, if_neg hex.2]
  · rename_i hne
    refine absurd (Or.inr fun q hq => ?_) hre
    unfold enableOf at hq
    split at hq
    · rename_i heq
      injection heq with heq _
      injection heq with e1 e2 e3
      subst e1 e2 e3
      exact absurd rfl (hne _ _ _)
    · cases hq
  · rename_i hne
    refine absurd (Or.inr fun q hq => ?_) hre
    unfold enableOf at hq
    split at hq
    · exact absurd rfl (hne _ _ _)
    · cases hq

/-! ### Examples and failures -/

/-- Ports: 0 clock, 1 asynchronous reset, 2 clock enable, 3 synchronous reset, others data. -/
def roles : VarId → Role := fun v => if v = 0 then .clock else if v = 1 then .asyncReset else if v = 2 then .clockEnable else if v = 3 then .reset else .data

/-- `v <= e`. -/
def put (v : VarId) (e : Expr) : Stmt := .assign true ⟨v, 0, 8⟩ e

def zero : Expr := .const 8 0

/-- `if (rst) q <= 0; else q <= d`. -/
def dff : Stmts := Stmts.ofList [.ite (.var 1 1) (Stmts.ofList [put 10 zero]) (Stmts.ofList [put 10 (.var 11 8)])]

example : AlreadyEnabled roles 2 dff = false ∧ ResetAlone roles dff := ⟨by decide, trivial⟩
example : Plain roles false dff := ⟨by decide, by decide⟩
example : ∃ ss, insertEn roles (fun _ => false) 2 dff = .ok ss ∧ ss = Stmts.ofList [.ite (.var 1 1) (Stmts.ofList [put 10 zero])
    (Stmts.ofList [.ite (.var 2 1) (Stmts.ofList [put 10 (.var 11 8)]) .nil])] := ⟨_, rfl, rfl⟩

/-- One clock edge from values `σ`. -/
def edge (ss : Stmts) (σ : Store) : Store := (ss.exec (fun _ st => st) ⟨σ, [], .run⟩).commit

/-- With enable and synchronous reset both inserted, disabled, the register keeps its value. -/
example : ∀ ss ss', insertEn roles (fun _ => false) 2 dff = .ok ss → injectReset roles (fun _ => false) false 3 ss = .ok ss' →
    edge ss' (fun v => if v = 10 then 5 else if v = 3 then 1 else 0) 10 = 5 ∧
    edge ss' (fun v => if v = 10 then 5 else if v = 3 then 1 else if v = 2 then 1 else 0) 10 = 0 := by
  intro ss ss' h1 h2
  injection h1 with h1
  subst h1
  injection h2 with h2
  subst h2
  decide

/-- First failure: a hand-made clock enable on the first statement makes the pass skip the block, and the second
statement is not gated. -/
def handGated : Stmts := Stmts.ofList [.ite (.var 2 1) (Stmts.ofList [put 10 (.var 11 8)]) .nil, put 12 (.var 11 8)]

theorem second_statement_not_gated : insertEn roles (fun _ => false) 2 handGated = .ok handGated ∧
    edge handGated (fun v => if v = 11 then 7 else 0) 12 = 7 := ⟨rfl, by decide⟩

/-- Second failure: a reset followed by another statement is gated with the rest, and does nothing while disabled. -/
def resetAndMore : Stmts := Stmts.ofList [.ite (.var 1 1) (Stmts.ofList [put 10 zero]) (Stmts.ofList [put 10 (.var 11 8)]), put 12 (.var 10 8)]

theorem reset_gated : ∀ ss, insertEn roles (fun _ => false) 2 resetAndMore = .ok ss →
    edge resetAndMore (fun v => if v = 1 then 1 else 5) 10 = 0 ∧ edge ss (fun v => if v = 1 then 1 else if v = 2 then 0 else 5) 10 = 5 := by
  intro ss h
  injection h with h
  subst h
  decide

/-- Third failure: such a block gets no synchronous reset. -/
theorem no_sync_reset : injectReset roles (fun _ => false) false 3 resetAndMore = .ok resetAndMore ∧ HasAsync roles resetAndMore = true ∧
    edge resetAndMore (fun v => if v = 3 then 1 else if v = 11 then 7 else 0) 10 = 7 := ⟨rfl, by decide, by decide⟩

/-- A function call in a gated block is refused. -/
theorem call_refused : insertEn roles (fun _ => true) 2 (Stmts.ofList [.other 0]) = .throw .user := rfl

theorem not_EnableClaim : ¬ ∀ ss ss', insertEn roles (fun _ => false) 2 ss = .ok ss' → EnableClaim roles 2 ss ss' := by
  intro h
  have hn : ¬ Resetting roles handGated ⟨fun v => if v = 11 then 7 else 0, [], .run⟩ := by
    rintro ⟨c, t, e, rest, h1, h2, _⟩
    injection h1 with h1 _
    injection h1 with h1 _ _
    subst h1
    exact absurd ((isReset_iff _ _).2 h2) (by decide)
  have h1 := (h handGated handGated rfl).off (fun _ st => st) ⟨fun v => if v = 11 then 7 else 0, [], .run⟩ rfl (by unfold On; decide) hn
  have h2 := congrArg (fun st : St => st.nba.length) h1
  exact absurd h2 (by decide)

theorem not_SyncClaim : ¬ ∀ ss ss', HasAsync roles ss = true → injectReset roles (fun _ => false) true 3 ss = .ok ss' → SyncClaim roles true 3 ss ss' := by
  intro h
  have h1 := (h resetAndMore resetAndMore (by decide) rfl).on (fun _ st => st) ⟨fun v => if v = 3 then 1 else 7, [], .run⟩ rfl (by unfold On; decide) (Or.inl rfl)
  have h2 := congrArg (fun st : St => st.nba.length) h1
  exact absurd h2 (by decide)

end Kratos.Gate
