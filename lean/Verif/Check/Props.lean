import Verif.Check.ExecLemmas

/-!
# Property theorems: function return (C26) and inferred latches (C27)
-/

namespace Kratos.Check
open Kratos.Ir Kratos.Opt

/-! ### C26 -/

/-- Every control path through the body meets a `return`. -/
def ReturnsOnAllPaths (dom : Expr → List Nat) (body : Stmts) : Prop :=
  ∀ p, PathB dom body p → ∃ x ∈ p, ∃ e, x = Stmt.ret e

/-- The full claim of C26 on executions: an accepted body returns from every start state. -/
def FunctionReturnCorrect : Prop :=
  ∀ (body : Stmts), AllB HeadWF body → AllB (SwitchOk (domain noEnum)) body →
    checkFunctionReturn noEnum body = .ok () →
    ∀ ι, Calm ι → ∀ st, st.ctl = .run → ∃ v, (body.exec ι st).ctl = .ret v

/-- False of the code: a loop that runs zero times is assumed to run. -/
theorem function_return_counterexample_loop : ¬ FunctionReturnCorrect := by
  intro h
  obtain ⟨v, hv⟩ := h (.cons (.for_ 0 0 0 1 (.cons (.ret (.const 1 1)) .nil)) .nil)
    (by simp [AllB, AllS, HeadWF]) (by simp [AllB, AllS, SwitchOk]) rfl
    (fun _ s => s) (fun _ _ h => h) ⟨fun _ => 0, [], .run⟩ rfl
  revert hv
  simp [Stmts.exec, Stmt.exec, iterValues, guardRun, endLoop]

/-- False of the code: `break` may leave the loop before its `return`. -/
theorem function_return_counterexample_break : ¬ FunctionReturnCorrect := by
  intro h
  obtain ⟨v, hv⟩ := h (.cons (.for_ 0 0 1 1 (.cons (.ite (.const 1 1) (.cons .brk .nil) .nil)
      (.cons (.ret (.const 1 1)) .nil))) .nil)
    (by simp [AllB, AllS, HeadWF, Expr.WF]) (by simp [AllB, AllS, SwitchOk]) rfl
    (fun _ s => s) (fun _ _ h => h) ⟨fun _ => 0, [], .run⟩ rfl
  have : (Stmts.exec (fun _ s => s) (.cons (.for_ 0 0 1 1
      (.cons (.ite (.const 1 1) (.cons .brk .nil) .nil)
      (.cons (.ret (.const 1 1)) .nil))) .nil) ⟨fun _ => 0, [], .run⟩).ctl = .run := by decide
  rw [this] at hv
  cases hv

/-- C26 for bodies without `break` and with loops that run at least once: an accepted function
returns in every execution. -/
theorem function_return_partial (body : Stmts)
    (hwf : AllB (fun s => SwitchOk (domain noEnum) s ∧ LoopOk s ∧ HeadWF s) body)
    (hnb : AllB NoBreak body) (hacc : checkFunctionReturn noEnum body = .ok ())
    (ι : Nat → St → St) (hι : Calm ι) (st : St) (hr : st.ctl = .run) :
    ∃ v, (body.exec ι st).ctl = .ret v := by
  simp only [checkFunctionReturn, Res.bind_eq_ok] at hacc
  obtain ⟨r, h, hacc⟩ := hacc
  cases r with
  | false => simp at hacc
  | true => exact retB ι hι body st hwf hnb h hr

/-- C26, both directions, on control paths (enum targets included, loops run at least once):
an accepted function returns on every path … -/
theorem function_return_accept_paths (enumOf : Expr → Option (List Nat)) (body : Stmts)
    (hwf : AllB (fun s => SwitchOk (domain enumOf) s ∧ LoopOk s) body)
    (hacc : checkFunctionReturn enumOf body = .ok ()) :
    ReturnsOnAllPaths (domain enumOf) body := by
  simp only [checkFunctionReturn, Res.bind_eq_ok] at hacc
  obtain ⟨r, h, hacc⟩ := hacc
  cases r with
  | false => simp at hacc
  | true =>
    intro p hp
    obtain ⟨x, hx, hc⟩ := (pathB_exact isRet_plain body true hwf h).1 rfl p hp
    exact ⟨x, hx, by cases x <;> simp_all [isRet]⟩

/-- … and a rejected one has a path without `return`, or code after a statement that always
returns. -/
theorem function_return_reject_paths (enumOf : Expr → Option (List Nat)) (body : Stmts)
    (hwf : AllB (fun s => SwitchOk (domain enumOf) s ∧ LoopOk s) body) (x : Err)
    (hrej : checkFunctionReturn enumOf body = .throw x) :
    ¬ ReturnsOnAllPaths (domain enumOf) body ∨ deadB (domain enumOf) body := by
  simp only [checkFunctionReturn] at hrej
  cases h : checkB enumOf isRet true true body with
  | ub => rw [h] at hrej; cases hrej
  | throw y => exact .inr (throwB body y hwf h).2
  | ok r =>
    rw [h] at hrej
    cases r with
    | true => cases hrej
    | false =>
      left
      intro hall
      obtain ⟨p, hp, hm⟩ := (pathB_exact isRet_plain body false hwf h).2 rfl
      obtain ⟨x, hx, e, rfl⟩ := hall p hp
      have := hm _ hx
      simp [isRet] at this

/-- `case (a[1:0]) 0,1,2,3: return` with an `if` inside: accepted, hypotheses hold. -/
def okBody : Stmts :=
  .cons (.switch (.var 0 1)
    (.cons (some 0) (.cons (.ite (.var 1 1) (.cons (.ret (.const 1 0)) .nil)
      (.cons (.ret (.const 1 1)) .nil)) .nil)
    (.cons (some 1) (.cons (.ret (.const 1 1)) .nil) .nil))) .nil

example : AllB (fun s => SwitchOk (domain noEnum) s ∧ LoopOk s ∧ HeadWF s) okBody ∧
    AllB NoBreak okBody ∧ checkFunctionReturn noEnum okBody = .ok () := by
  refine ⟨?_, by simp [okBody, AllB, AllS, AllC, NoBreak], rfl⟩
  simp [okBody, AllB, AllS, AllC, SwitchOk, LoopOk, HeadWF, Expr.WF, labels, domain, Expr.width,
    pattern, List.range, List.range.loop]

/-- A rejected body: `if (a) return 0;`. -/
example : checkFunctionReturn noEnum
    (.cons (.ite (.var 0 1) (.cons (.ret (.const 1 0)) .nil) .nil) .nil) = .throw .stmt := rfl

/-! ### C27 -/

/-- The full claim of C27: in an accepted block every variable that is assigned anywhere is
assigned by an executed statement, whatever the state. -/
def LatchCorrect : Prop :=
  ∀ (body : Stmts), AllB HeadWF body → AllB (SwitchOk (domain noEnum)) body →
    AllB NoJump body → checkLatch noEnum body = .ok () →
    ∀ v, AssignedIn v body → ∀ ι, Calm ι → ∀ st, st.ctl = .run →
      ∃ s ∈ traceB ι body st, ∃ nb l r, s = Stmt.assign nb l r ∧ l.v = v

theorem latch_counterexample_loop : ¬ LatchCorrect := by
  intro h
  obtain ⟨s, hs, _⟩ := h (.cons (.for_ 0 0 0 1 (.cons (.assign false ⟨1, 0, 1⟩ (.const 1 1)) .nil)) .nil)
    (by simp [AllB, AllS, HeadWF]) (by simp [AllB, AllS, SwitchOk])
    (by simp [AllB, AllS, NoJump]) rfl 1 (by simp [AssignedIn, AllB, AllS])
    (fun _ s => s) (fun _ _ h => h) ⟨fun _ => 0, [], .run⟩ rfl
  revert hs
  simp [traceB, traceS, iterValues, traceL]

theorem assignsVar_plain (v) : ∀ s, assignsVar v s = true → plain s = true := by
  intro s; cases s <;> simp [assignsVar, plain]

theorem checkLatchList_mem (enumOf body) : ∀ vs, checkLatchList enumOf body vs = .ok () →
    ∀ v ∈ vs, checkB enumOf (assignsVar v) false true body = .ok true
  | [], _, v, hv => by simp at hv
  | u :: vs, h, v, hv => by
      simp only [checkLatchList, Res.bind_eq_ok] at h
      obtain ⟨_, h1, h2⟩ := h
      rw [List.mem_cons] at hv
      rcases hv with rfl | hv
      · simp only [checkLatchVar, Res.bind_eq_ok] at h1
        obtain ⟨r, h3, h4⟩ := h1
        cases r with
        | true => exact h3
        | false => simp at h4
      · exact checkLatchList_mem enumOf body vs h2 v hv

mutual
theorem assignedS_complete (v : VarId) : ∀ s : Stmt, v ∉ assignedS s →
    AllS (fun s => ∀ nb l r, s = Stmt.assign nb l r → l.v ≠ v) s
  | .assign nb l r, h => by
      simp only [assignedS, List.mem_singleton] at h
      intro _ _ _ e he
      cases e
      exact h he.symm
  | .ite c t e, h => by
      simp only [assignedS, List.mem_append, not_or] at h
      exact ⟨(by intro _ _ _ e; cases e), assignedB_complete v t h.1, assignedB_complete v e h.2⟩
  | .switch tgt cs, h => ⟨(by intro _ _ _ e; cases e), assignedC_complete v cs h⟩
  | .for_ iv a b s body, h => ⟨(by intro _ _ _ e; cases e), assignedB_complete v body h⟩
  | .ret e, _ => by intro _ _ _ e; cases e
  | .brk, _ => by intro _ _ _ e; cases e
  | .other n, _ => by intro _ _ _ e; cases e
theorem assignedB_complete (v : VarId) : ∀ s : Stmts, v ∉ assignedB s →
    AllB (fun s => ∀ nb l r, s = Stmt.assign nb l r → l.v ≠ v) s
  | .nil, _ => trivial
  | .cons s ss, h => by
      simp only [assignedB, List.mem_append, not_or] at h
      exact ⟨assignedS_complete v s h.1, assignedB_complete v ss h.2⟩
theorem assignedC_complete (v : VarId) : ∀ s : Cases, v ∉ assignedC s →
    AllC (fun s => ∀ nb l r, s = Stmt.assign nb l r → l.v ≠ v) s
  | .nil, _ => trivial
  | .cons k b cs, h => by
      simp only [assignedC, List.mem_append, not_or] at h
      exact ⟨assignedB_complete v b h.1, assignedC_complete v cs h.2⟩
end

theorem assigned_complete (v : VarId) (body : Stmts) (h : AssignedIn v body) : v ∈ assignedB body :=
  Classical.byContradiction fun hn => h (assignedB_complete v body hn)

/-- C27 for blocks whose loops run at least once. -/
theorem latch_partial (body : Stmts)
    (hwf : AllB (fun s => SwitchOk (domain noEnum) s ∧ LoopOk s ∧ HeadWF s) body)
    (hnj : AllB NoJump body) (hacc : checkLatch noEnum body = .ok ())
    (v : VarId) (hv : AssignedIn v body) (ι : Nat → St → St) (hι : Calm ι) (st : St)
    (hr : st.ctl = .run) :
    ∃ s ∈ traceB ι body st, ∃ nb l r, s = Stmt.assign nb l r ∧ l.v = v := by
  have h := checkLatchList_mem noEnum body _ hacc v (assigned_complete v body hv)
  obtain ⟨s, hs, hc⟩ := hitB (assignsVar_plain v) ι hι body st hwf hnj h hr
  refine ⟨s, hs, ?_⟩
  cases s <;> simp [assignsVar] at hc
  exact ⟨_, _, _, rfl, hc⟩

/-- The check is exact on control paths (enum targets included, loops run at least once): it
accepts precisely the blocks in which each assigned variable is assigned on every path. -/
theorem latch_paths_exact (enumOf : Expr → Option (List Nat)) (body : Stmts)
    (hwf : AllB (fun s => SwitchOk (domain enumOf) s ∧ LoopOk s) body)
    (v : VarId) (r : Bool) (h : checkB enumOf (assignsVar v) false true body = .ok r) :
    r = true ↔ ∀ p, PathB (domain enumOf) body p →
      ∃ s ∈ p, ∃ nb l x, s = Stmt.assign nb l x ∧ l.v = v := by
  have hex := pathB_exact (assignsVar_plain v) body r hwf h
  constructor
  · intro hr p hp
    obtain ⟨s, hs, hc⟩ := hex.1 hr p hp
    refine ⟨s, hs, ?_⟩
    cases s <;> simp [assignsVar] at hc
    exact ⟨_, _, _, rfl, hc⟩
  · intro hall
    cases r with
    | true => rfl
    | false =>
      obtain ⟨p, hp, hm⟩ := hex.2 rfl
      obtain ⟨s, hs, nb, l, x, rfl, hl⟩ := hall p hp
      have := hm _ hs
      simp [assignsVar, hl] at this

/-- Assignments to slices count as assignments of the variable: the check accepts a block that
leaves bits unassigned.  `if (c) a[0] = 1; else a[1] = 1;` -/
def sliceBody : Stmts :=
  .cons (.ite (.var 0 1) (.cons (.assign false ⟨1, 0, 1⟩ (.const 1 1)) .nil)
    (.cons (.assign false ⟨1, 1, 1⟩ (.const 1 1)) .nil)) .nil

/-- Accepted, yet bit 0 of the variable keeps its old value when `c = 0`: whatever it was. -/
theorem latch_slice_counterexample : checkLatch noEnum sliceBody = .ok () ∧
    ∀ old : Nat, ((sliceBody.exec (fun _ s => s) ⟨fun v => if v = 1 then old else 0, [], .run⟩).val 1) % 2
      = old % 2 := by
  refine ⟨rfl, fun old => ?_⟩
  simp [sliceBody, Stmts.exec, Stmt.exec, guardRun, Expr.eval, Store.write, setBits, pattern]
  omega

/-- `if (c) a = 1; else { a = 0; b = 1 }; b = 0` is accepted. -/
def okLatch : Stmts :=
  .cons (.ite (.var 0 1) (.cons (.assign false ⟨1, 0, 1⟩ (.const 1 1)) .nil)
    (.cons (.assign false ⟨1, 0, 1⟩ (.const 1 0))
      (.cons (.assign false ⟨2, 0, 1⟩ (.const 1 1)) .nil)))
    (.cons (.assign false ⟨2, 0, 1⟩ (.const 1 0)) .nil)

example : AllB (fun s => SwitchOk (domain noEnum) s ∧ LoopOk s ∧ HeadWF s) okLatch ∧
    AllB NoJump okLatch ∧ checkLatch noEnum okLatch = .ok () ∧ AssignedIn 2 okLatch := by
  refine ⟨?_, by simp [okLatch, AllB, AllS, NoJump], rfl, by simp [okLatch, AssignedIn, AllB, AllS]⟩
  simp [okLatch, AllB, AllS, SwitchOk, LoopOk, HeadWF, Expr.WF]

/-- Rejected: `if (c) a = 1;` -/
example : checkLatch noEnum (.cons (.ite (.var 0 1)
    (.cons (.assign false ⟨1, 0, 1⟩ (.const 1 1)) .nil) .nil) .nil) = .throw .stmt := rfl

/-- A `case` on a target of 32 bits or more makes the check shift out of range. -/
theorem check_wide_ub (cond : Stmt → Bool) (un full : Bool) (v w) (b : Stmts) (hw : 32 ≤ w)
    (hc : cond (.switch (.var v w) (.cons none b .nil)) = false)
    (hb : checkB noEnum cond un full b = .ok true) :
    checkS noEnum cond un full (.switch (.var v w) (.cons none b .nil)) = .ub := by
  simp [checkS, hc, Cases.isEmpty, checkC, hb, Res.bind, targetedCases, Expr.width, hw]

example : checkB noEnum isRet true true (.cons (.ret (.const 1 0)) .nil) = .ok true := rfl

end Kratos.Check
