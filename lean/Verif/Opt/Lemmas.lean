import Verif.Opt.Model
import Verif.Opt.Spec
import Verif.Ir.Lemmas

/-! Helper lemmas for the statement-rewriting passes. -/

namespace Kratos.Opt
open Kratos.Ir

/-- First matching link, else the final else-body. -/
def runLinks (ι : Nat → St → St) (w v : Nat) : List (Int × Stmts) → Stmts → St → St
  | [], fin, st => fin.exec ι st
  | (c, b) :: l, fin, st => if pattern w c = v then b.exec ι st else runLinks ι w v l fin st

structure ChainSpec (x : Expr) (s : Stmt) (links : List (Int × Stmts)) (fin : Stmts) : Prop where
  keys : links.map (fun p => pattern x.width p.1) = eqChain x s
  sem : ∀ ι st, st.ctl = .run →
    s.exec ι st = runLinks ι x.width (x.eval st.val) links fin st
  all : ∀ P, AllS P s → (∀ p ∈ links, AllB P p.2) ∧ AllB P fin

theorem hasTargetIf_nonIf (same) (s : Stmt) (var : Option Expr) (n : Nat)
    (hs : ∀ c t e, s ≠ .ite c t e) :
    hasTargetIf same s var n = if n ≤ 1 then none else some (var, [], .cons s .nil) := by
  cases s <;> first | rfl | exact absurd rfl (hs _ _ _)

theorem eqChain_nonIf (x) (s : Stmt) (hs : ∀ c t e, s ≠ .ite c t e) : eqChain x s = [] := by
  cases s <;> first | rfl | exact absurd rfl (hs _ _ _)

theorem eq_ne_zero (x y : Nat) : b2n (x == y) ≠ 0 ↔ y = x := by
  rw [b2n_ne_zero, beq_iff_eq, eq_comm]

/-- predicate is `l == const` -/
def isEqPred : Expr → Bool
  | .bin .eq _ (.const _ _) => true
  | _ => false

theorem isEqPred_iff (c : Expr) : isEqPred c = true → ∃ l w v, c = .bin .eq l (.const w v) := by
  intro h
  unfold isEqPred at h
  split at h
  · exact ⟨_, _, _, rfl⟩
  · simp at h

theorem hasTargetIf_notEq (same) (c : Expr) (t e : Stmts) (var n)
    (h : isEqPred c = false) : hasTargetIf same (.ite c t e) var n = none := by
  unfold hasTargetIf
  split
  · rename_i heq; cases heq; simp [isEqPred] at h
  · rfl
  · rename_i h2; exact absurd rfl (h2 _ _ _)

theorem chain_some (same) (hsame : ∀ a b, same a b = true → a = b) :
    ∀ (s : Stmt) (x : Expr) (n : Nat) (y links fin),
      AllS HeadWF s → hasTargetIf same s (some x) n = some (y, links, fin) →
      y = some x ∧ ChainSpec x s links fin
  | .ite c t els, x, n, y, links, fin, hwf, h => by
      cases hp : isEqPred c with
      | false => rw [hasTargetIf_notEq same c t els _ _ hp] at h; simp at h
      | true =>
        obtain ⟨l, w, v, rfl⟩ := isEqPred_iff c hp
        have hw : l.width = w := hwf.1.2.2
        unfold hasTargetIf at h
        simp only at h
        split at h
        · rename_i hs
          have hx := hsame _ _ hs
          subst hx
          subst hw
          cases els with
          | nil =>
            simp only [Option.some.injEq, Prod.mk.injEq] at h
            obtain ⟨rfl, rfl, rfl⟩ := h
            refine ⟨rfl, ⟨by simp [eqChain], ?_, ?_⟩⟩
            · intro ι st hr
              simp only [Stmt.exec, guardRun_run hr, Expr.eval, BinOp.sem, runLinks, eq_ne_zero]
            · intro P hP
              exact ⟨by simpa using hP.2.1, trivial⟩
          | cons s1 rest =>
            cases rest with
            | cons s2 r => simp at h
            | nil =>
              simp only at h
              split at h
              · rename_i x' links' fin' hrec
                simp only [Option.some.injEq, Prod.mk.injEq] at h
                obtain ⟨rfl, rfl, rfl⟩ := h
                obtain ⟨rfl, hc⟩ := chain_some same hsame s1 x (n+1) _ _ _ hwf.2.2.1 hrec
                refine ⟨rfl, ⟨by simp [eqChain, hc.keys], ?_, ?_⟩⟩
                · intro ι st hr
                  simp only [Stmt.exec, guardRun_run hr, Expr.eval, BinOp.sem, runLinks,
                    eq_ne_zero, Stmts.exec]
                  rw [hc.sem ι st hr]
                · intro P hP
                  have := hc.all P hP.2.2.1
                  exact ⟨by intro p hp; cases hp with
                      | head => exact hP.2.1
                      | tail _ hp => exact this.1 p hp, this.2⟩
              · simp at h
        · simp at h
  | .assign nb l r, x, n, y, links, fin, hwf, h => nonIf _ x n y links fin h (by intros; simp)
  | .switch a b, x, n, y, links, fin, hwf, h => nonIf _ x n y links fin h (by intros; simp)
  | .for_ a b c d e, x, n, y, links, fin, hwf, h => nonIf _ x n y links fin h (by intros; simp)
  | .ret e, x, n, y, links, fin, hwf, h => nonIf _ x n y links fin h (by intros; simp)
  | .brk, x, n, y, links, fin, hwf, h => nonIf _ x n y links fin h (by intros; simp)
  | .other k, x, n, y, links, fin, hwf, h => nonIf _ x n y links fin h (by intros; simp)
where
  nonIf (s : Stmt) (x n y links fin) (h : hasTargetIf same s (some x) n = some (y, links, fin))
      (hs : ∀ c t e, s ≠ .ite c t e) : y = some x ∧ ChainSpec x s links fin := by
    rw [hasTargetIf_nonIf same s _ _ hs] at h
    split at h
    · simp at h
    · simp only [Option.some.injEq, Prod.mk.injEq] at h
      obtain ⟨rfl, rfl, rfl⟩ := h
      refine ⟨rfl, ⟨by simp [eqChain_nonIf x s hs], ?_, ?_⟩⟩
      · intro ι st hr; simp [runLinks, Stmts.exec]
      · intro P hP; exact ⟨by simp, hP, trivial⟩

theorem chain_top (same) (hsame : ∀ a b, same a b = true → a = b) (s : Stmt) (y links fin)
    (hwf : AllS HeadWF s) (h : hasTargetIf same s none 0 = some (some y, links, fin)) :
    ChainSpec y s links fin := by
  cases s with
  | ite c t els =>
    cases hp : isEqPred c with
    | false => rw [hasTargetIf_notEq same c t els _ _ hp] at h; simp at h
    | true =>
      obtain ⟨l, w, v, rfl⟩ := isEqPred_iff c hp
      have hw : l.width = w := hwf.1.2.2
      unfold hasTargetIf at h
      simp only [if_true] at h
      subst hw
      cases els with
      | nil =>
        simp only [Option.some.injEq, Prod.mk.injEq] at h
        obtain ⟨rfl, rfl, rfl⟩ := h
        refine ⟨by simp [eqChain], ?_, ?_⟩
        · intro ι st hr
          simp only [Stmt.exec, guardRun_run hr, Expr.eval, BinOp.sem, runLinks, eq_ne_zero]
        · intro P hP
          exact ⟨by simpa using hP.2.1, trivial⟩
      | cons s1 rest =>
        cases rest with
        | cons s2 r => simp at h
        | nil =>
          simp only at h
          split at h
          · rename_i x' links' fin' hrec
            simp only [Option.some.injEq, Prod.mk.injEq] at h
            obtain ⟨rfl, rfl, rfl⟩ := h
            obtain ⟨hy, hc⟩ := chain_some same hsame s1 l 1 _ _ _ hwf.2.2.1 hrec
            cases hy
            refine ⟨by simp [eqChain, hc.keys], ?_, ?_⟩
            · intro ι st hr
              simp only [Stmt.exec, guardRun_run hr, Expr.eval, BinOp.sem, runLinks,
                eq_ne_zero, Stmts.exec]
              rw [hc.sem ι st hr]
            · intro P hP
              have := hc.all P hP.2.2.1
              exact ⟨by intro p hp; cases hp with
                  | head => exact hP.2.1
                  | tail _ hp => exact this.1 p hp, this.2⟩
          · simp at h
  | _ => simp [hasTargetIf] at h

/-! ### collectCases -/

def keysOf : Cases → List (Option Int)
  | .nil => []
  | .cons k _ cs => k :: keysOf cs

def snoc : Cases → Option Int → Stmts → Cases
  | .nil, k, b => .cons k b .nil
  | .cons k' b' cs, k, b => .cons k' b' (snoc cs k b)

theorem addCase_new : ∀ (cs : Cases) (k b), k ∉ keysOf cs → addCase cs k b = snoc cs k b
  | .nil, _, _, _ => rfl
  | .cons k' b' cs, k, b, h => by
      simp only [keysOf, List.mem_cons, not_or] at h
      simp [addCase, snoc, Ne.symm h.1, addCase_new cs k b h.2]

theorem keysOf_snoc : ∀ (cs : Cases) (k b), keysOf (snoc cs k b) = keysOf cs ++ [k]
  | .nil, _, _ => rfl
  | .cons k' b' cs, k, b => by simp [snoc, keysOf, keysOf_snoc cs k b]

def appC : Cases → Cases → Cases
  | .nil, d => d
  | .cons k b cs, d => .cons k b (appC cs d)

theorem snoc_appC : ∀ (cs k b d), appC (snoc cs k b) d = appC cs (.cons k b d)
  | .nil, _, _, _ => rfl
  | .cons k' b' cs, k, b, d => by simp [snoc, appC, snoc_appC cs k b d]

theorem appC_nil : ∀ (cs), appC cs .nil = cs
  | .nil => rfl
  | .cons k' b' cs => by simp [appC, appC_nil cs]

def linksC : List (Int × Stmts) → Cases
  | [] => .nil
  | (c, b) :: l => .cons (some c) b (linksC l)

theorem foldl_addCase (links : List (Int × Stmts)) : ∀ (cs : Cases),
    (links.map Prod.fst).Nodup → (∀ p ∈ links, some p.1 ∉ keysOf cs) →
    links.foldl (fun cs p => addCase cs (some p.1) p.2) cs = appC cs (linksC links) := by
  induction links with
  | nil => intro cs _ _; simp [linksC, appC_nil]
  | cons p links ih =>
    intro cs hn hk
    simp only [List.map_cons, List.nodup_cons] at hn
    simp only [List.foldl_cons]
    rw [addCase_new _ _ _ (hk p (by simp)), ih _ hn.2, snoc_appC]
    · rfl
    · intro q hq
      rw [keysOf_snoc]
      simp only [List.mem_append, List.mem_singleton, Option.some.injEq, not_or]
      refine ⟨hk q (List.mem_cons_of_mem _ hq), ?_⟩
      intro e; exact hn.1 (e ▸ List.mem_map_of_mem hq)

theorem keysOf_linksC (links) : keysOf (linksC links) = links.map (fun p => some p.1) := by
  induction links with
  | nil => rfl
  | cons p l ih => obtain ⟨c, b⟩ := p; simp [linksC, keysOf, ih]

theorem addCase_linksC_none (links b) :
    addCase (linksC links) none b = appC (linksC links) (.cons none b .nil) := by
  rw [addCase_new]
  · induction links with
    | nil => rfl
    | cons p l ih => obtain ⟨c, b⟩ := p; simp [linksC, snoc, appC, ih]
  · rw [keysOf_linksC]; simp

theorem exec_links_default (ι w v) (links fin) : ∀ k st,
    (appC (linksC links) (.cons none fin .nil)).exec ι w v k st = runLinks ι w v links fin st := by
  induction links with
  | nil => intro k st; simp [linksC, appC, Cases.exec, runLinks]
  | cons p l ih => obtain ⟨c, b⟩ := p; intro k st; simp [linksC, appC, Cases.exec, runLinks, ih]

theorem exec_links_nodefault (ι w v) (links) : ∀ st,
    (linksC links).exec ι w v id st = runLinks ι w v links .nil st := by
  induction links with
  | nil => intro st; simp [linksC, Cases.exec, runLinks, Stmts.exec]
  | cons p l ih => obtain ⟨c, b⟩ := p; intro st; simp [linksC, Cases.exec, runLinks, ih]

theorem nodup_of_map {α β} (f : α → β) (l : List α) (h : (l.map f).Nodup) : l.Nodup := by
  induction l with
  | nil => simp
  | cons a l ih =>
    simp only [List.map_cons, List.nodup_cons] at h ⊢
    exact ⟨fun hm => h.1 (List.mem_map_of_mem hm), ih h.2⟩

theorem collectCases_exec (ι w v) (links fin) (hn : (links.map (fun p => pattern w p.1)).Nodup)
    (st) : (collectCases links fin).exec ι w v id st = runLinks ι w v links fin st := by
  have hn' : (links.map Prod.fst).Nodup := by
    apply nodup_of_map (pattern w)
    simpa [List.map_map, Function.comp_def] using hn
  unfold collectCases
  simp only
  rw [foldl_addCase links .nil hn' (by simp [keysOf])]
  simp only [appC]
  cases fin with
  | nil => exact exec_links_nodefault ι w v links st
  | cons s ss => simp only [addCase_linksC_none]; exact exec_links_default ι w v links _ id st

/-! ### AllB on nested blocks -/

def KidsS (Q : Stmts → Prop) : Stmt → Prop
  | .ite _ t e => Q t ∧ Q e
  | .switch _ cs => ∀ p ∈ cs.toList, Q p.2
  | .for_ _ _ _ _ b => Q b
  | _ => True

theorem AllC_toList (P) : ∀ cs : Cases, AllC P cs → ∀ p ∈ cs.toList, AllB P p.2
  | .nil, _, p, hp => by simp [Cases.toList] at hp
  | .cons k b cs, h, p, hp => by
      simp only [Cases.toList, List.mem_cons] at hp
      rcases hp with rfl | hp
      · exact h.1
      · exact AllC_toList P cs h.2 p hp

theorem AllS_kids (P) (s : Stmt) (h : AllS P s) : KidsS (AllB P) s := by
  cases s <;> simp only [KidsS]
  · exact h.2
  · exact AllC_toList P _ h.2
  · exact h.2

theorem AllS_head (P) (s : Stmt) (h : AllS P s) : P s := by
  cases s <;> first | exact h.1 | exact h

theorem AllB_append (P) : ∀ (a b : Stmts), AllB P a → AllB P b → AllB P (a ++ b)
  | .nil, _, _, hb => hb
  | .cons _ a, b, ha, hb => ⟨ha.1, AllB_append P a b ha.2 hb⟩

theorem addCase_all (P) : ∀ (cs : Cases) (k b), (∀ p ∈ cs.toList, AllB P p.2) → AllB P b →
    ∀ p ∈ (addCase cs k b).toList, AllB P p.2
  | .nil, k, b, _, hb, p, hp => by simp [addCase, Cases.toList] at hp; subst hp; exact hb
  | .cons k' b' cs, k, b, hcs, hb, p, hp => by
      simp only [addCase] at hp
      split at hp
      · simp only [Cases.toList, List.mem_cons] at hp
        rcases hp with rfl | hp
        · exact AllB_append P _ _ (hcs (k', b') (by simp [Cases.toList])) hb
        · exact hcs p (by simp [Cases.toList, hp])
      · simp only [Cases.toList, List.mem_cons] at hp
        rcases hp with rfl | hp
        · exact hcs (k', b') (by simp [Cases.toList])
        · exact addCase_all P cs k b (fun q hq => hcs q (by simp [Cases.toList, hq])) hb p hp

theorem foldl_addCase_all (P) : ∀ (links : List (Int × Stmts)) (cs : Cases),
    (∀ p ∈ cs.toList, AllB P p.2) → (∀ p ∈ links, AllB P p.2) →
    ∀ p ∈ (links.foldl (fun cs p => addCase cs (some p.1) p.2) cs).toList, AllB P p.2
  | [], cs, h, _ => h
  | q :: l, cs, h, hl => foldl_addCase_all P l _
      (addCase_all P cs _ _ h (hl q (by simp))) (fun p hp => hl p (List.mem_cons_of_mem _ hp))

theorem collectCases_all (P) (links fin) (hl : ∀ p ∈ links, AllB P p.2) (hf : AllB P fin) :
    ∀ p ∈ (collectCases links fin).toList, AllB P p.2 := by
  have := foldl_addCase_all P links .nil (by simp [Cases.toList]) hl
  cases fin with
  | nil => exact this
  | cons s ss => exact addCase_all P _ _ _ this hf

end Kratos.Opt
