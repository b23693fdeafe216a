import Verif.Opt.MergeLemmas

/-!
# Property theorems: if→case (C13), merge_if_block (C14), remove_empty_block (C15)

`Stmts.Equiv a b` is the specification: executing `a` or `b` from any state, with any meaning
of the uninterpreted statements, gives the same values, the same pending non-blocking updates
and the same control outcome.
-/

namespace Kratos.Opt
open Kratos.Ir

/-- All-zero state. -/
def st0 : St := ⟨fun _ => 0, [], .run⟩

/-- `x<v>[7:0] = c` (blocking) -/
def setc (v : VarId) (c : Int) : Stmt := .assign false ⟨v, 0, 8⟩ (.const 8 c)

/-! ### C13: transform_if_to_case -/

/-- The full claim of C13: whatever block the pass returns behaves like its input. -/
def IfToCaseCorrect : Prop :=
  ∀ (same : Expr → Expr → Bool), (∀ a b, same a b = true → a = b) →
    ∀ (n : Nat) (ss r : Stmts), AllB HeadWF ss → ifToCase same n ss = .ok r → ss.Equiv r

/-- `if (a == 0) x = 1; else if (a == 0) x = 2; else x = 3;` -/
def dupChain : Stmts :=
  let a : Expr := .var 0 1
  .cons (.ite (.bin .eq a (.const 1 0)) (.cons (setc 1 1) .nil)
    (.cons (.ite (.bin .eq a (.const 1 0)) (.cons (setc 1 2) .nil) (.cons (setc 1 3) .nil)) .nil))
    .nil

/-- The claim is false of the code: a repeated comparison value makes both bodies run. -/
theorem if_to_case_counterexample : ¬ IfToCaseCorrect := by
  intro h
  have := h (fun a b => a = b) (by simp) 1 dupChain _
    (by simp [dupChain, AllB, AllS, HeadWF, Expr.WF, setc, Expr.width]) rfl
  have h2 := congrArg (fun s : St => s.val 1) (this (fun _ s => s) st0)
  revert h2
  decide

/-- C13 for designs whose if/else-if chains do not test one value twice: every block returned by
the pass, at any nesting depth, is equivalent to its input. -/
theorem if_to_case_partial (same : Expr → Expr → Bool) (hsame : ∀ a b, same a b = true → a = b)
    (n : Nat) (ss r : Stmts) (hwf : AllB HeadWF ss) (hnr : AllB NoRepeat ss)
    (h : ifToCase same n ss = .ok r) : ss.Equiv r := by
  refine ifToCase_equiv same hsame n ss r ?_ h
  exact both ss hwf hnr
where
  bothS : ∀ s, AllS HeadWF s → AllS NoRepeat s → AllS CaseOk s
    | .ite _ t e, h, k => ⟨⟨h.1, k.1⟩, both t h.2.1 k.2.1, both e h.2.2 k.2.2⟩
    | .switch _ cs, h, k => ⟨⟨h.1, k.1⟩, bothC cs h.2 k.2⟩
    | .for_ _ _ _ _ b, h, k => ⟨⟨h.1, k.1⟩, both b h.2 k.2⟩
    | .assign .., h, k => ⟨h, k⟩
    | .ret _, h, k => ⟨h, k⟩
    | .brk, h, k => ⟨h, k⟩
    | .other _, h, k => ⟨h, k⟩
  both : ∀ b, AllB HeadWF b → AllB NoRepeat b → AllB CaseOk b
    | .nil, _, _ => trivial
    | .cons s ss, h, k => ⟨bothS s h.1 k.1, both ss h.2 k.2⟩
  bothC : ∀ b, AllC HeadWF b → AllC NoRepeat b → AllC CaseOk b
    | .nil, _, _ => trivial
    | .cons _ s ss, h, k => ⟨both s h.1 k.1, bothC ss h.2 k.2⟩

/-- `if (a == 0) x = 1; else if (a == 1) x = 2; else x = 3;`, converted to a real `case`. -/
def okChain : Stmts :=
  let a : Expr := .var 0 1
  .cons (.ite (.bin .eq a (.const 1 0)) (.cons (setc 1 1) .nil)
    (.cons (.ite (.bin .eq a (.const 1 1)) (.cons (setc 1 2) .nil) (.cons (setc 1 3) .nil)) .nil))
    .nil

example : AllB HeadWF okChain ∧ AllB NoRepeat okChain ∧
    ifToCase (fun a b => a = b) 3 okChain = .ok (.cons (.switch (.var 0 1)
      (.cons (some 0) (.cons (setc 1 1) .nil) (.cons (some 1) (.cons (setc 1 2) .nil)
        (.cons none (.cons (setc 1 3) .nil) .nil)))) .nil) := by
  refine ⟨by simp [okChain, AllB, AllS, HeadWF, Expr.WF, setc, Expr.width], ?_, rfl⟩
  simp only [okChain, AllB, AllS, setc, and_true]
  refine ⟨?_, by intro x; simp [eqChain], ?_, by intro x; simp [eqChain], by intro x; simp [eqChain]⟩
  · intro x
    by_cases hx : Expr.var 0 1 = x
    · subst hx; simp [eqChain, pattern]
    · simp [eqChain, hx]
  · intro x
    by_cases hx : Expr.var 0 1 = x
    · subst hx; simp [eqChain]
    · simp [eqChain, hx]

/-- The cases of a `case` statement live in a map ordered by address; with pairwise different
labels (and at most one default) the order cannot be observed. -/
theorem case_order_irrelevant (tgt : Expr) (l l' : List (Option Int × Stmts)) (hp : l.Perm l')
    (hn : (l.map (fun p => p.1.map (pattern tgt.width))).Nodup) :
    (Stmt.switch tgt (Cases.ofList l)).Equiv (.switch tgt (Cases.ofList l')) := by
  intro ι st
  simp only [Stmt.exec]
  rw [cases_perm ι _ _ hp hn]

example : ([(some 0, .nil), (none, .nil)] : List (Option Int × Stmts)).Perm
    [(none, .nil), (some 0, .nil)] ∧
    ([(some 0, .nil), (none, .nil)] : List (Option Int × Stmts)).map
      (fun p => p.1.map (pattern 3)) = [some 0, none] := ⟨.swap _ _ _, rfl⟩

/-- The pass shifts `1u` by the width of the compared variable: undefined from 32 bits on. -/
theorem if_to_case_wide_ub (same : Expr → Expr → Bool) (v w c t n) (ss : Stmts) (hw : 32 ≤ w) :
    ifToCase same (n + 1)
      (.cons (.ite (.bin .eq (.var v w) (.const w c)) t .nil) ss) = .ub := by
  simp [ifToCase, mapStmtsM, transformOne, hasTargetIf, Expr.width, hw, Res.bind]

example : (32 : Nat) ≤ 64 := by decide

/-! ### C14: merge_if_block -/

/-- `if (x == c) b else e` -/
def ifEq (x : Expr) (c : Int) (b e : Stmts) : Stmt := .ite (.bin .eq x (.const x.width c)) b e

/-- The full claim of C14. -/
def MergeIfCorrect : Prop :=
  ∀ (same : Expr → Expr → Bool), (∀ a b, same a b = true ↔ a = b) →
    ∀ (targets : List Expr) (ss : Stmts), AllB HeadWF ss → ss.Equiv (mergeIfBlock same targets ss)

/-- False of the code: the else-branch of a later `if` is lost when the first one matches. -/
theorem merge_if_counterexample_else : ¬ MergeIfCorrect := by
  intro h
  have := h (fun a b => a = b) (by simp) [.var 0 1]
    (.cons (ifEq (.var 0 1) 0 (.cons (setc 1 1) .nil) .nil)
      (.cons (ifEq (.var 0 1) 1 .nil (.cons (setc 2 5) .nil)) .nil))
    (by simp [AllB, AllS, HeadWF, Expr.WF, setc, Expr.width, ifEq])
  have h2 := congrArg (fun s : St => s.val 2) (this (fun _ s => s) st0)
  revert h2
  decide

/-- False of the code: an intervening statement is executed in a different order. -/
theorem merge_if_counterexample_between : ¬ MergeIfCorrect := by
  intro h
  have := h (fun a b => a = b) (by simp) [.var 0 1]
    (.cons (ifEq (.var 0 1) 1 (.cons (setc 1 1) .nil) .nil)
      (.cons (setc 2 7)
      (.cons (ifEq (.var 0 1) 0 (.cons (setc 2 5) .nil) .nil) .nil)))
    (by simp [AllB, AllS, HeadWF, Expr.WF, setc, Expr.width, ifEq])
  have h2 := congrArg (fun s : St => s.val 2) (this (fun _ s => s) st0)
  revert h2
  decide

/-- C14 for one target `x` whose `if`s are consecutive, only the first of which has an else
branch, with branches that leave `x` unchanged: the merged block behaves like the original, for
any number of `if`s, repeated constants included, and any surrounding statements. -/
theorem merge_if_partial (same : Expr → Expr → Bool) (hsame : ∀ a b, same a b = true → a = b)
    (x : Expr) (hrefl : same x x = true) (pre post : Stmts)
    (hpre : ∀ s ∈ pre.toList, eqChain x s = []) (hpost : ∀ s ∈ post.toList, eqChain x s = [])
    (c0 : Int) (b0 e0 : Stmts) (rest : List (Int × Stmts))
    (hk0 : Keeps x b0) (hke : Keeps x e0) (hk : ∀ p ∈ rest, Keeps x p.2)
    (hinj : ∀ a ∈ c0 :: rest.map Prod.fst, ∀ b ∈ c0 :: rest.map Prod.fst,
      pattern x.width a = pattern x.width b → a = b) :
    let block := pre ++ (.cons (ifEq x c0 b0 e0)
      (Stmts.ofList (rest.map fun p => ifEq x p.1 p.2 .nil)) ++ post)
    block.Equiv (mergeIfBlock same [x] block) := by
  intro block
  let m0 : MIf := ⟨x, c0, .bin .eq x (.const x.width c0), b0, e0⟩
  let ms : List MIf := rest.map fun p => ⟨x, p.1, .bin .eq x (.const x.width p.1), p.2, .nil⟩
  have hgrp : (Stmts.cons (ifEq x c0 b0 e0)
      (Stmts.ofList (rest.map fun p => ifEq x p.1 p.2 .nil)))
      = Stmts.ofList ((m0 :: ms).map MIf.toStmt) := by
    simp only [List.map_cons, Stmts.ofList, ms, List.map_map]; rfl
  have hg : groupOf same x block = m0 :: ms := by
    have hof : ∀ (rest : List (Int × Stmts)), groupOf same x
        (Stmts.ofList (rest.map fun p => ifEq x p.1 p.2 .nil) ++ post)
        = rest.map fun p => ⟨x, p.1, .bin .eq x (.const x.width p.1), p.2, .nil⟩ := by
      intro rest
      induction rest with
      | nil => simpa [Stmts.ofList] using groupOf_nil_other same hsame x post hpost
      | cons p r ih =>
        simp only [List.map_cons, Stmts.ofList, Stmts.cons_append, groupOf, ifEq, targetedIf,
          hrefl, if_true]
        rw [← ih]; rfl
    simp only [block]
    rw [groupOf_other same hsame x pre _ hpre]
    simp only [Stmts.cons_append, groupOf, ifEq, targetedIf, hrefl, if_true]
    rw [← show _ = ms from hof rest]; rfl
  have hreb : ∀ g, rebuild same x g block false = pre ++ (.cons g post) := by
    intro g
    have hof : ∀ (rest : List (Int × Stmts)), rebuild same x g
        (Stmts.ofList (rest.map fun p => ifEq x p.1 p.2 .nil) ++ post) true = post := by
      intro rest
      induction rest with
      | nil => simpa [Stmts.ofList] using rebuild_nil_other same hsame x g true post hpost
      | cons p r ih =>
        simp only [List.map_cons, Stmts.ofList, Stmts.cons_append, rebuild, ifEq, targetedIf,
          hrefl, if_true]
        exact ih
    simp only [block]
    rw [rebuild_other same hsame x g false pre _ hpre]
    simp only [Stmts.cons_append, rebuild, ifEq, targetedIf, hrefl, if_true]
    have := hof rest
    simp only [ifEq] at this
    rw [this]; simp
  show block.Equiv (mergeTarget same x block)
  unfold mergeTarget
  rw [hg]
  simp only
  split
  · split
    · rename_i g hng
      rw [hreb g]
      have hcore := group_equiv x m0 ms g ⟨rfl, hk0, hke⟩
        (by
          intro m hm
          obtain ⟨p, hp, rfl⟩ := List.mem_map.mp hm
          exact ⟨rfl, rfl, hk p hp⟩)
        (by
          intro a ha b hb
          have key : ∀ y ∈ m0 :: ms, y.val ∈ c0 :: rest.map Prod.fst := by
            intro y hy
            rw [List.mem_cons] at hy
            rcases hy with rfl | hy
            · simp [m0]
            · obtain ⟨p, hp, rfl⟩ := List.mem_map.mp hy
              exact List.mem_cons_of_mem _ (List.mem_map_of_mem hp)
          exact hinj _ (key a ha) _ (key b hb)) hng
      simp only [block, hgrp]
      exact Stmts.Equiv.append (Stmts.Equiv.refl _)
        (Stmts.Equiv.append hcore (Stmts.Equiv.refl post))
    · exact Stmts.Equiv.refl _
  · exact Stmts.Equiv.refl _

/-- Hypotheses are met by `if (a==0) x=1 else y=2; if (a==1) x=3; if (a==0) y=4`. -/
example : Keeps (.var 0 1) (.cons (setc 1 1) .nil) ∧
    (∀ a ∈ [0, 1, (0 : Int)], ∀ b ∈ [0, 1, (0 : Int)], pattern 1 a = pattern 1 b → a = b) ∧
    mergeIfBlock (fun a b => a = b) [.var 0 1]
      (.cons (ifEq (.var 0 1) 0 (.cons (setc 1 1) .nil) (.cons (setc 2 2) .nil))
        (.cons (ifEq (.var 0 1) 1 (.cons (setc 1 3) .nil) .nil)
        (.cons (ifEq (.var 0 1) 0 (.cons (setc 2 4) .nil) .nil) .nil)))
      = .cons (ifEq (.var 0 1) 0 (.cons (setc 1 1) (.cons (setc 2 4) .nil))
          (.cons (setc 2 2) (.cons (ifEq (.var 0 1) 1 (.cons (setc 1 3) .nil) .nil) .nil))) .nil := by
  refine ⟨?_, by decide, rfl⟩
  intro ι st
  simp only [setc, Stmts.exec, Stmt.exec, Expr.eval, guardRun]
  split <;> simp [Store.write]

/-! ### C15: remove_empty_block -/

/-- The full claim of C15: the pass always returns an equivalent block. -/
def RemoveEmptyCorrect : Prop :=
  ∀ ss : Stmts, AllB HeadWF ss → ∃ r, removeEmpty ss = .ok r ∧ ss.Equiv r

/-- C15 on every block whose `if` and `case` statements have the `Prunable` shape, at every
nesting depth: the pass succeeds, the result is equivalent, and it is empty exactly when the
input contained nothing but empty blocks. -/
theorem remove_empty_partial (ss : Stmts) (h : AllB Prunable ss) :
    ∃ r, removeEmpty ss = .ok r ∧ ss.Equiv r ∧ (r = .nil ↔ hollowB ss = true) := by
  obtain ⟨r, h1, h2, h3⟩ := removeB_ok ss h
  refine ⟨r, h1, h3, ?_⟩
  rw [← h2, isEmpty_iff]

/-- `if (a) {} else x = 1; case (b) 0: x = 2; 1: {} endcase` -/
example : AllB Prunable
    (.cons (.ite (.var 0 1) .nil (.cons (setc 1 1) .nil))
      (.cons (.switch (.var 2 1) (.cons (some 0) (.cons (setc 1 2) .nil)
        (.cons (some 1) .nil .nil))) .nil)) := by
  simp [AllB, AllS, AllC, Prunable, hollowB, hollowS, allPlain, plain, setc, hasDefault, labels,
    Expr.WF, Expr.width, pattern]

/-- An `if` with two empty branches makes the pass dereference a null pointer. -/
theorem remove_empty_both_ub (c : Expr) (ss : Stmts) :
    removeEmpty (.cons (.ite c .nil .nil) ss) = .ub := by
  simp [removeEmpty, removeEmptyStmt, Res.bind, Stmts.isEmpty]

/-- … so C15 is false of the code. -/
theorem remove_empty_counterexample_ub : ¬ RemoveEmptyCorrect := by
  intro h
  obtain ⟨r, hr, _⟩ := h (.cons (.ite (.var 0 1) .nil .nil) .nil)
    (by simp [AllB, AllS, HeadWF, Expr.WF])
  rw [remove_empty_both_ub] at hr
  cases hr

/-- The predicate is inverted bitwise: for a 2-bit predicate equal to 1, `~p` is also true. -/
theorem remove_empty_counterexample_wide :
    ∃ r, removeEmpty (.cons (.ite (.const 2 1) .nil (.cons (setc 1 1) .nil)) .nil) = .ok r ∧
      ¬ (Stmts.cons (.ite (.const 2 1) .nil (.cons (setc 1 1) .nil)) .nil).Equiv r := by
  refine ⟨_, rfl, ?_⟩
  intro h
  have h2 := congrArg (fun s : St => s.val 1) (h (fun _ s => s) st0)
  revert h2
  decide

/-- Statements nested in an else-branch that is moved to the then-branch are lost. -/
theorem remove_empty_counterexample_nested :
    ∃ r, removeEmpty (.cons (.ite (.var 0 1) .nil
        (.cons (.ite (.const 1 1) (.cons (setc 1 1) .nil) .nil) .nil)) .nil) = .ok r ∧
      ¬ (Stmts.cons (.ite (.var 0 1) .nil
        (.cons (.ite (.const 1 1) (.cons (setc 1 1) .nil) .nil) .nil)) .nil).Equiv r := by
  refine ⟨_, rfl, ?_⟩
  intro h
  have h2 := congrArg (fun s : St => s.val 1) (h (fun _ s => s) st0)
  revert h2
  decide

/-- An empty labelled case is dropped although its value then falls into the default. -/
theorem remove_empty_counterexample_default :
    ∃ r, removeEmpty (.cons (.switch (.var 0 1) (.cons (some 0) .nil
        (.cons none (.cons (setc 1 1) .nil) .nil))) .nil) = .ok r ∧
      ¬ (Stmts.cons (.switch (.var 0 1) (.cons (some 0) .nil
        (.cons none (.cons (setc 1 1) .nil) .nil))) .nil).Equiv r := by
  refine ⟨_, rfl, ?_⟩
  intro h
  have h2 := congrArg (fun s : St => s.val 1) (h (fun _ s => s) st0)
  revert h2
  decide

end Kratos.Opt
