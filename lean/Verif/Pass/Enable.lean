import Verif.Seq.Pipeline

/-!
# Enable conditions (property C32)

Models `compute_enable_condition`, src/analysis.cc:888-1009: for every statement inside an `if` branch, a switch case
or a loop body the pass builds an expression that is meant to say when the statement runs.

Simplifications: the textual form of the condition (`handle_name`) is not modelled, the expression is; case constants
have the width of the switch target (the `Expr` constructor, src/expr.cc:742-795, otherwise resizes or refuses them);
an operand of `&&` that is a constant or a parameter is not resized, it is refused like any other; the attribute
`ssa-en=` of top-level blocking assignments (890-898, 979-1004) is written by the Python side and not modelled.
-/

namespace Kratos.Enable
open Kratos.Ir
open Kratos.Pipe (NbOnly NbOnlyS NbOnlyC nb_val nbs_val nbc_val)

/-- A position in a block: where the statement of interest is. -/
inductive Ctx where
  | here (pre post : Stmts)
  | thenC (pre : Stmts) (c : Expr) (k : Ctx) (e post : Stmts)
  | elseC (pre : Stmts) (c : Expr) (t : Stmts) (k : Ctx) (post : Stmts)
  | caseC (pre : Stmts) (tgt : Expr) (before : Cases) (key : Option Int) (k : Ctx) (after : Cases) (post : Stmts)
  | forC (pre : Stmts) (iv : VarId) (a b s : Int) (k : Ctx) (post : Stmts)

def Cases.cat : Cases → Cases → Cases
  | .nil, d => d
  | .cons k b cs, d => .cons k b (Cases.cat cs d)

/-- The whole block, with `s` at the position. -/
def Ctx.plug (s : Stmt) : Ctx → Stmts
  | .here pre post => pre ++ .cons s post
  | .thenC pre c k e post => pre ++ .cons (.ite c (k.plug s) e) post
  | .elseC pre c t k post => pre ++ .cons (.ite c t (k.plug s)) post
  | .caseC pre tgt before key k after post => pre ++ .cons (.switch tgt (Cases.cat before (.cons key (k.plug s) after))) post
  | .forC pre iv a b st k post => pre ++ .cons (.for_ iv a b st (k.plug s)) post

/-! ### The code -/

def keys : Cases → List (Option Int)
  | .nil => []
  | .cons k _ cs => k :: keys cs

/-- One step of the walk from a statement to its generator (`ir_parent`, src/analysis.cc:918-970): the block sits in
the then part or else part of an `if`, in a case of a switch, or in a loop. -/
inductive Level where
  | thn (c : Expr)
  | els (c : Expr)
  | case (tgt : Expr) (all : List (Option Int)) (key : Option Int)
  | loop

/-- The parents of the statement, innermost first (`Stmt::parent`). -/
def Ctx.levels : Ctx → List Level
  | .here _ _ => []
  | .thenC _ c k _ _ => k.levels ++ [.thn c]
  | .elseC _ c _ k _ => k.levels ++ [.els c]
  | .caseC _ tgt before key k after _ => k.levels ++ [.case tgt (keys before ++ key :: keys after) key]
  | .forC _ _ _ _ _ k _ => k.levels ++ [.loop]

/-- The values of the cases other than default, sorted by value (src/analysis.cc:949-961). -/
def conditions (all : List (Option Int)) : List Int := (all.filterMap id).mergeSort (fun a b => decide (a ≤ b))

/-- `or_ = or_ || conditions[i]` (src/analysis.cc:962-967). -/
def orAll (w : Nat) (first : Expr) (l : List Int) : Expr := l.foldl (fun o c => .bin .lor o (.const w c)) first

/-- The condition of the default case (src/analysis.cc:946-968): `conditions[0]` is undefined behaviour when the
default is the only case. -/
def defaultCond (tgt : Expr) (all : List (Option Int)) : Res Expr :=
  match conditions all with
  | [] => .ub
  | c :: l => .ok (.bin .neq tgt (orAll tgt.width (.const tgt.width c) l))

/-- src/analysis.cc:925-971: the condition contributed by one parent; a loop contributes none. -/
def Level.cond : Level → Res (Option Expr)
  | .thn c => .ok (some c)
  | .els c => .ok (some (.un .not c))
  | .case tgt _ (some c) => .ok (some (.bin .eq tgt (.const tgt.width c)))
  | .case tgt all none => (defaultCond tgt all).map some
  | .loop => .ok none

/-- `operator&&` (src/expr.cc:161-163) with the width check of the `Expr` constructor (src/expr.cc:757-771). -/
def mkAnd (l r : Expr) : Res Expr := if l.width = r.width then .ok (.bin .land l r) else .throw .var

/-- src/analysis.cc:971-978: `expr && get_cond(parent)`. -/
def combine (e : Expr) : Option Expr → Res (Option Expr)
  | some r => (mkAnd e r).map some
  | none => .ok (some e)

/-- `get_cond`, src/analysis.cc:914-978. -/
def getCond : List Level → Res (Option Expr)
  | [] => .ok none
  | l :: ls => l.cond.bind fun e => match e with
    | some e => (getCond ls).bind fun rest => combine e rest
    | none => getCond ls

/-- The entry of `compute_enable_condition` for the statement at a position; `none`: no entry. -/
def enableCond (k : Ctx) : Res (Option Expr) := getCond k.levels

/-! ### Specification -/

/-- Interpretation in which the statement of interest, `other 0`, behaves as `m`. -/
def withMark (ι : Nat → St → St) (m : St → St) : Nat → St → St := fun n => if n = 0 then m else ι n

/-- Control reaches the position: what the statement there does makes a difference. -/
def Reached (ι : Nat → St → St) (k : Ctx) (st : St) : Prop :=
  ∃ m, (k.plug (.other 0)).exec (withMark ι m) st ≠ (k.plug (.other 0)).exec (withMark ι id) st

mutual
/-- Assignments, `if`, `case` and loops; with `nb`, non-blocking assignments only. -/
def Plain (nb : Bool) : Stmt → Prop
  | .assign b _ _ => nb = true → b = true
  | .ite _ t e => PlainS nb t ∧ PlainS nb e
  | .switch _ cs => PlainC nb cs
  | .for_ _ _ _ _ b => PlainS nb b
  | .ret _ => False
  | .brk => False
  | .other _ => False
def PlainS (nb : Bool) : Stmts → Prop
  | .nil => True
  | .cons s ss => Plain nb s ∧ PlainS nb ss
def PlainC (nb : Bool) : Cases → Prop
  | .nil => True
  | .cons _ b cs => PlainS nb b ∧ PlainC nb cs
end

/-- The code around the position is plain, and the cases of a switch have different values. -/
def Ctx.Plain (nb : Bool) : Ctx → Prop
  | .here pre post => PlainS nb pre ∧ PlainS nb post
  | .thenC pre _ k e post => PlainS nb pre ∧ k.Plain nb ∧ PlainS nb e ∧ PlainS nb post
  | .elseC pre _ t k post => PlainS nb pre ∧ PlainS nb t ∧ k.Plain nb ∧ PlainS nb post
  | .caseC pre tgt before key k after post => PlainS nb pre ∧ PlainC nb before ∧ k.Plain nb ∧ PlainC nb after ∧ PlainS nb post ∧
      ((keys before ++ key :: keys after).map (Option.map (pattern tgt.width))).Nodup
  | .forC pre _ _ _ _ k post => PlainS nb pre ∧ k.Plain nb ∧ PlainS nb post

/-- The value at `v` may be read by a predicate or a switch target above the position. -/
def Ctx.Tests (v : VarId) : Ctx → Prop
  | .here _ _ => False
  | .thenC _ c k _ _ => c.reads v ∨ k.Tests v
  | .elseC _ c _ k _ => c.reads v ∨ k.Tests v
  | .caseC _ tgt _ _ k _ _ => tgt.reads v ∨ k.Tests v
  | .forC _ _ _ _ _ k _ => k.Tests v

/-- Enclosing loops run at least once and no condition below them reads the loop variable. -/
def Ctx.LoopsRun : Ctx → Prop
  | .here _ _ => True
  | .thenC _ _ k _ _ => k.LoopsRun
  | .elseC _ _ _ k _ => k.LoopsRun
  | .caseC _ _ _ _ k _ _ => k.LoopsRun
  | .forC _ iv a b s k _ => iterValues a b s ≠ [] ∧ ¬ k.Tests iv ∧ k.LoopsRun

/-- The position is in the default case of a switch only where the switch has exactly one other case. -/
def Ctx.FewDefaults : Ctx → Prop
  | .here _ _ => True
  | .thenC _ _ k _ _ => k.FewDefaults
  | .elseC _ _ _ k _ => k.FewDefaults
  | .caseC _ _ before key k after _ => (key = none → (keys before ++ keys after).length = 1) ∧ k.FewDefaults
  | .forC _ _ _ _ _ k _ => k.FewDefaults

def start (σ : Store) : St := ⟨σ, [], .run⟩

/-- Full claim of C32: the condition is true exactly in the states in which control reaches the statement, and a
statement without a condition is always reached. -/
def EnableClaim : Prop := ∀ (k : Ctx) (oe : Option Expr), k.Plain false → enableCond k = .ok oe →
  ∀ (ι : Nat → St → St) (σ : Store), Reached ι k (start σ) ↔ ∀ e, oe = some e → e.eval σ ≠ 0

/-! ### Plain code -/

mutual
theorem plain_nb : ∀ (s : Stmt), Plain true s → NbOnly s
  | .assign _ _ _, h => h rfl
  | .ite _ t e, h => ⟨plains_nb t h.1, plains_nb e h.2⟩
  | .switch _ cs, h => plainc_nb cs h
  | .for_ _ _ _ _ b, h => plains_nb b h
  | .ret _, h => h.elim
  | .brk, h => h.elim
  | .other _, h => h.elim
theorem plains_nb : ∀ (s : Stmts), PlainS true s → NbOnlyS s
  | .nil, _ => trivial
  | .cons s ss, h => ⟨plain_nb s h.1, plains_nb ss h.2⟩
theorem plainc_nb : ∀ (s : Cases), PlainC true s → NbOnlyC s
  | .nil, _ => trivial
  | .cons _ b cs, h => ⟨plains_nb b h.1, plainc_nb cs h.2⟩
end

mutual
/-- Plain code does not depend on what other statements mean. -/
theorem plain_iota (ι ι' : Nat → St → St) (nb : Bool) : ∀ (s : Stmt) (st : St), Plain nb s → s.exec ι st = s.exec ι' st
  | .assign _ _ _, _, _ => by simp only [Stmt.exec]
  | .ite c t e, st, h => by
    simp only [Stmt.exec]
    rw [plains_iota ι ι' nb t st h.1, plains_iota ι ι' nb e st h.2]
  | .switch tgt cs, st, h => by
    simp only [Stmt.exec]
    rw [plainc_iota ι ι' nb cs _ _ id id st h rfl]
  | .for_ iv a b s body, st, h => by
    simp only [Stmt.exec]
    have : (fun (st : St) i => guardRun st (body.exec ι (setIter iv i st)))
         = (fun (st : St) i => guardRun st (body.exec ι' (setIter iv i st))) := by
      funext st i; rw [plains_iota ι ι' nb body _ h]
    rw [this]
  | .ret _, _, h => h.elim
  | .brk, _, h => h.elim
  | .other _, _, h => h.elim
theorem plains_iota (ι ι' : Nat → St → St) (nb : Bool) : ∀ (s : Stmts) (st : St), PlainS nb s → s.exec ι st = s.exec ι' st
  | .nil, _, _ => by simp only [Stmts.exec]
  | .cons s ss, st, h => by
    simp only [Stmts.exec]
    rw [plain_iota ι ι' nb s st h.1, plains_iota ι ι' nb ss _ h.2]
theorem plainc_iota (ι ι' : Nat → St → St) (nb : Bool) : ∀ (cs : Cases) (w v : Nat) (k k' : St → St) (st : St), PlainC nb cs →
    k st = k' st → cs.exec ι w v k st = cs.exec ι' w v k' st
  | .nil, _, _, _, _, _, _, hk => by simpa only [Cases.exec] using hk
  | .cons none b cs, w, v, k, k', st, h, _ => by
    simp only [Cases.exec]
    exact plainc_iota ι ι' nb cs w v _ _ st h.2 (plains_iota ι ι' nb b st h.1)
  | .cons (some c) b cs, w, v, k, k', st, h, hk => by
    simp only [Cases.exec]
    rw [plains_iota ι ι' nb b st h.1, plainc_iota ι ι' nb cs w v k k' st h.2 hk]
end

theorem foldl_keep {α β : Type} (P : β → Prop) (f : β → α → β) (h : ∀ b a, P b → P (f b a)) : ∀ (l : List α) (b : β), P b → P (l.foldl f b)
  | [], _, hb => hb
  | a :: l, b, hb => foldl_keep P f h l (f b a) (h b a hb)

mutual
/-- Plain code never stops early. -/
theorem plain_ctl (ι : Nat → St → St) (nb : Bool) : ∀ (s : Stmt) (st : St), Plain nb s → st.ctl = .run → (s.exec ι st).ctl = .run
  | .assign nb' l r, st, _, hr => by
    simp only [Stmt.exec, guardRun, hr, if_true]
    split <;> rfl
  | .ite c t e, st, h, hr => by
    simp only [Stmt.exec, guardRun, hr, if_true]
    split
    · exact plains_ctl ι nb t st h.1 hr
    · exact plains_ctl ι nb e st h.2 hr
  | .switch tgt cs, st, h, hr => by
    simp only [Stmt.exec, guardRun, hr, if_true]
    exact plainc_ctl ι nb cs _ _ id st h hr (fun _ h => h)
  | .for_ iv a b s body, st, h, hr => by
    simp only [Stmt.exec, guardRun_run hr, endLoop]
    rw [foldl_keep (fun st : St => st.ctl = .run) _ (fun st' i h' => by
      simp only [guardRun_run h']
      exact plains_ctl ι nb body _ h h') _ st hr]
    simp
  | .ret _, _, h, _ => h.elim
  | .brk, _, h, _ => h.elim
  | .other _, _, h, _ => h.elim
theorem plains_ctl (ι : Nat → St → St) (nb : Bool) : ∀ (s : Stmts) (st : St), PlainS nb s → st.ctl = .run → (s.exec ι st).ctl = .run
  | .nil, _, _, hr => by simpa only [Stmts.exec] using hr
  | .cons s ss, st, h, hr => by
    simp only [Stmts.exec]
    exact plains_ctl ι nb ss _ h.2 (plain_ctl ι nb s st h.1 hr)
theorem plainc_ctl (ι : Nat → St → St) (nb : Bool) : ∀ (cs : Cases) (w v : Nat) (k : St → St) (st : St), PlainC nb cs → st.ctl = .run →
    (∀ st, st.ctl = .run → (k st).ctl = .run) → (cs.exec ι w v k st).ctl = .run
  | .nil, _, _, _, _, _, hr, hk => by simpa only [Cases.exec] using hk _ hr
  | .cons none b cs, w, v, k, st, h, hr, _ => by
    simp only [Cases.exec]
    exact plainc_ctl ι nb cs w v _ st h.2 hr (fun st => plains_ctl ι nb b st h.1)
  | .cons (some c) b cs, w, v, k, st, h, hr, hk => by
    simp only [Cases.exec]
    split
    · exact plains_ctl ι nb b st h.1 hr
    · exact plainc_ctl ι nb cs w v k st h.2 hr hk
end

/-! ### Cases -/

theorem keys_cat (c d : Cases) : keys (Cases.cat c d) = keys c ++ keys d := by
  match c with
  | .nil => rfl
  | .cons k b c => simp only [Cases.cat, keys, keys_cat c d, List.cons_append]

/-- No value matches and there is no default: the default seen before runs. -/
theorem cases_miss (ι : Nat → St → St) (w v : Nat) : ∀ (cs : Cases) (k : St → St) (st : St),
    (∀ key ∈ keys cs, ∃ c, key = some c ∧ pattern w c ≠ v) → cs.exec ι w v k st = k st
  | .nil, _, _, _ => by simp only [Cases.exec]
  | .cons none b cs, k, st, h => by
    obtain ⟨c, hc, _⟩ := h none (List.mem_cons_self ..)
    cases hc
  | .cons (some c) b cs, k, st, h => by
    obtain ⟨c', hc, hne⟩ := h (some c) (List.mem_cons_self ..)
    cases hc
    simp only [Cases.exec]
    rw [if_neg hne]
    exact cases_miss ι w v cs k st (fun key hk => h key (List.mem_cons_of_mem _ hk))

/-- Some value matches: the default does not matter. -/
theorem cases_hit (ι ι' : Nat → St → St) (nb : Bool) (w v : Nat) : ∀ (cs : Cases) (k k' : St → St) (st : St), PlainC nb cs →
    (∃ c, some c ∈ keys cs ∧ pattern w c = v) → cs.exec ι w v k st = cs.exec ι' w v k' st
  | .nil, _, _, _, _, h => by obtain ⟨c, hc, _⟩ := h; cases hc
  | .cons none b cs, k, k', st, hp, h => by
    simp only [Cases.exec]
    obtain ⟨c, hc, e⟩ := h
    refine cases_hit ι ι' nb w v cs _ _ st hp.2 ⟨c, ?_, e⟩
    rcases List.mem_cons.1 hc with h | h
    · cases h
    · exact h
  | .cons (some c0) b cs, k, k', st, hp, h => by
    simp only [Cases.exec]
    split
    · exact plains_iota ι ι' nb b st hp.1
    · next hne =>
      obtain ⟨c, hc, e⟩ := h
      refine cases_hit ι ι' nb w v cs _ _ st hp.2 ⟨c, ?_, e⟩
      rcases List.mem_cons.1 hc with h | h
      · cases h; exact absurd e hne
      · exact h

/-- The case with value `c` runs when the target has that value. -/
theorem case_taken (ι : Nat → St → St) (w v c : _) (b : Stmts) (after : Cases) (hv : pattern w c = v) : ∀ (before : Cases) (k : St → St) (st : St),
    (∀ key ∈ keys before, key.map (pattern w) ≠ some v) →
    (Cases.cat before (.cons (some c) b after)).exec ι w v k st = b.exec ι st
  | .nil, k, st, _ => by simp only [Cases.cat, Cases.exec]; rw [if_pos hv]
  | .cons none _ cs, k, st, h => by
    simp only [Cases.cat, Cases.exec]
    exact case_taken ι w v c b after hv cs _ st (fun key hk => h key (List.mem_cons_of_mem _ hk))
  | .cons (some c') _ cs, k, st, h => by
    simp only [Cases.cat, Cases.exec]
    rw [if_neg (fun e => h (some c') (List.mem_cons_self ..) (by rw [Option.map_some, e]))]
    exact case_taken ι w v c b after hv cs _ st (fun key hk => h key (List.mem_cons_of_mem _ hk))

/-- When the target has another value, what the case does makes no difference. -/
theorem case_skipped (ι ι' : Nat → St → St) (nb : Bool) (w v : Nat) (c : Int) (b : Stmts) (after : Cases) (ha : PlainC nb after)
    (hv : pattern w c ≠ v) : ∀ (before : Cases) (k k' : St → St) (st : St), PlainC nb before → k st = k' st →
    (Cases.cat before (.cons (some c) b after)).exec ι w v k st = (Cases.cat before (.cons (some c) b after)).exec ι' w v k' st
  | .nil, k, k', st, _, hk => by
    simp only [Cases.cat, Cases.exec]
    rw [if_neg hv, if_neg hv]
    exact plainc_iota ι ι' nb after w v k k' st ha hk
  | .cons none d cs, k, k', st, h, _ => by
    simp only [Cases.cat, Cases.exec]
    exact case_skipped ι ι' nb w v c b after ha hv cs _ _ st h.2 (plains_iota ι ι' nb d st h.1)
  | .cons (some c') d cs, k, k', st, h, hk => by
    simp only [Cases.cat, Cases.exec]
    rw [plains_iota ι ι' nb d st h.1, case_skipped ι ι' nb w v c b after ha hv cs k k' st h.2 hk]

/-- The default runs when no value matches. -/
theorem default_taken (ι : Nat → St → St) (w v : Nat) (b : Stmts) (after : Cases) : ∀ (before : Cases) (k : St → St) (st : St),
    (∀ key ∈ keys before ++ keys after, ∃ c, key = some c ∧ pattern w c ≠ v) →
    (Cases.cat before (.cons none b after)).exec ι w v k st = b.exec ι st
  | .nil, k, st, h => by
    simp only [Cases.cat, Cases.exec]
    exact cases_miss ι w v after _ st h
  | .cons none _ cs, k, st, h => by
    obtain ⟨c, hc, _⟩ := h none (List.mem_cons_self ..)
    cases hc
  | .cons (some c') _ cs, k, st, h => by
    obtain ⟨c, hc, hne⟩ := h (some c') (List.mem_cons_self ..)
    cases hc
    simp only [Cases.cat, Cases.exec]
    rw [if_neg hne]
    exact default_taken ι w v b after cs _ st (fun key hk => h key (List.mem_cons_of_mem _ hk))

/-- When a value matches, what the default does makes no difference. -/
theorem default_skipped (ι ι' : Nat → St → St) (nb : Bool) (w v : Nat) (b : Stmts) (after : Cases) (ha : PlainC nb after) :
    ∀ (before : Cases) (k k' : St → St) (st : St), PlainC nb before → (∃ c, some c ∈ keys before ++ keys after ∧ pattern w c = v) →
    (Cases.cat before (.cons none b after)).exec ι w v k st = (Cases.cat before (.cons none b after)).exec ι' w v k' st
  | .nil, k, k', st, _, h => by
    simp only [Cases.cat, Cases.exec]
    exact cases_hit ι ι' nb w v after _ _ st ha h
  | .cons none d cs, k, k', st, hp, h => by
    simp only [Cases.cat, Cases.exec]
    obtain ⟨c, hc, e⟩ := h
    refine default_skipped ι ι' nb w v b after ha cs _ _ st hp.2 ⟨c, ?_, e⟩
    rcases List.mem_cons.1 hc with h | h
    · cases h
    · exact h
  | .cons (some c0) d cs, k, k', st, hp, h => by
    simp only [Cases.cat, Cases.exec]
    split
    · exact plains_iota ι ι' nb d st hp.1
    · next hne =>
      obtain ⟨c, hc, e⟩ := h
      refine default_skipped ι ι' nb w v b after ha cs _ _ st hp.2 ⟨c, ?_, e⟩
      rcases List.mem_cons.1 hc with h | h
      · cases h; exact absurd e hne
      · exact h

/-! ### Path conditions -/

/-- The branch taken at one level, in the state `σ`. -/
def Level.Taken (σ : Store) : Level → Prop
  | .thn c => c.eval σ ≠ 0
  | .els c => c.eval σ = 0
  | .case tgt _ (some c) => pattern tgt.width c = tgt.eval σ
  | .case tgt all none => ∀ c, some c ∈ all → pattern tgt.width c ≠ tgt.eval σ
  | .loop => True

/-- All branches above the position are taken. -/
def Path (σ : Store) (k : Ctx) : Prop := ∀ l ∈ k.levels, l.Taken σ

theorem path_snoc {σ : Store} {ls : List Level} {l : Level} : (∀ x ∈ ls ++ [l], x.Taken σ) ↔ l.Taken σ ∧ ∀ x ∈ ls, x.Taken σ :=
  ⟨fun h => ⟨h l (List.mem_append.2 (.inr (List.mem_cons_self ..))), fun x hx => h x (List.mem_append.2 (.inl hx))⟩,
   fun h x hx => (List.mem_append.1 hx).elim (h.2 x) (fun hx => by rw [List.mem_singleton.1 hx]; exact h.1)⟩

/-- `v` is used by a condition of the position: only then does changing `v` change the path condition. -/
theorem path_congr {σ τ : Store} : ∀ (k : Ctx), (∀ v, k.Tests v → σ v = τ v) → (Path σ k ↔ Path τ k)
  | .here _ _, _ => ⟨fun _ _ h => (nomatch h), fun _ _ h => (nomatch h)⟩
  | .thenC _ c k _ _, h => by
    simp only [Path, Ctx.levels, path_snoc]
    simp only [Level.Taken]
    rw [Expr.eval_congr c (fun v hv => h v (.inl hv))]
    exact and_congr_right fun _ => path_congr k (fun v hv => h v (.inr hv))
  | .elseC _ c _ k _, h => by
    simp only [Path, Ctx.levels, path_snoc]
    simp only [Level.Taken]
    rw [Expr.eval_congr c (fun v hv => h v (.inl hv))]
    exact and_congr_right fun _ => path_congr k (fun v hv => h v (.inr hv))
  | .caseC _ tgt before key k after _, h => by
    simp only [Path, Ctx.levels, path_snoc]
    have he := Expr.eval_congr tgt (fun v hv => h v (.inl hv))
    have : (Level.case tgt (keys before ++ key :: keys after) key).Taken σ ↔ (Level.case tgt (keys before ++ key :: keys after) key).Taken τ := by
      cases key <;> simp only [Level.Taken, he]
    rw [this]
    exact and_congr_right fun _ => path_congr k (fun v hv => h v (.inr hv))
  | .forC _ _ _ _ _ k _, h => by
    simp only [Path, Ctx.levels, path_snoc]
    simp only [Level.Taken]
    exact and_congr_right fun _ => path_congr k h

theorem nodup_mid {α : Type} {a : α} {l r : List α} (h : (l ++ a :: r).Nodup) : a ∉ l ∧ a ∉ r := by
  obtain ⟨_, h2, h3⟩ := List.nodup_append.1 h
  exact ⟨fun ha => h3 a ha a (List.mem_cons_self ..) rfl, (List.nodup_cons.1 h2).1⟩

theorem foldl_stop {α : Type} (f : St → α → St) (h : ∀ st a, st.ctl ≠ .run → f st a = st) : ∀ (l : List α) (st : St), st.ctl ≠ .run → l.foldl f st = st
  | [], _, _ => rfl
  | a :: l, st, hs => by rw [List.foldl_cons, h st a hs]; exact foldl_stop f h l st hs

theorem foldl_same {α : Type} (P : St → Prop) (f g : St → α → St) (h : ∀ st a, P st → f st a = g st a ∧ P (f st a)) :
    ∀ (l : List α) (st : St), P st → l.foldl f st = l.foldl g st
  | [], _, _ => rfl
  | a :: l, st, hs => by
    rw [List.foldl_cons, List.foldl_cons, (h st a hs).1]
    exact foldl_same P f g h l _ ((h st a hs).1 ▸ (h st a hs).2)

theorem pre_state (ι : Nat → St → St) {pre : Stmts} {st : St} (h : PlainS true pre) (hr : st.ctl = .run) :
    (pre.exec ι st).ctl = .run ∧ (pre.exec ι st).val = st.val :=
  ⟨plains_ctl ι true pre st h hr, nbs_val ι pre st (plains_nb pre h)⟩

/-- An empty statement. -/
def skip : Stmt := .ite (.const 1 0) .nil .nil

theorem skip_cases (ι : Nat → St → St) (key : Option Int) (b b' : Stmts) (after : Cases) (hb : ∀ st, b.exec ι st = b'.exec ι st) (w v : Nat) :
    ∀ (before : Cases) (kk : St → St) (st : St), (Cases.cat before (.cons key b after)).exec ι w v kk st = (Cases.cat before (.cons key b' after)).exec ι w v kk st
  | .nil, kk, st => by
    simp only [Cases.cat]
    cases key with
    | none => simp only [Cases.exec]; congr 1; funext st; exact hb st
    | some c => simp only [Cases.exec]; rw [hb]
  | .cons none _ cs, kk, st => by
    simp only [Cases.cat, Cases.exec]; exact skip_cases ι key b b' after hb w v cs _ st
  | .cons (some c) _ cs, kk, st => by
    simp only [Cases.cat, Cases.exec]; rw [skip_cases ι key b b' after hb w v cs _ st]

theorem plug_skip (ι : Nat → St → St) : ∀ (k : Ctx) (st : St), (k.plug (.other 0)).exec (withMark ι id) st = (k.plug skip).exec (withMark ι id) st
  | .here pre post, st => by
    simp only [Ctx.plug, Stmts.exec_append, Stmts.exec_cons, Stmt.exec, skip, withMark, if_true, Stmts.exec_nil, id, ite_self]
  | .thenC pre c k e post, st => by
    simp only [Ctx.plug, Stmts.exec_append, Stmts.exec_cons, Stmt.exec]
    rw [plug_skip ι k]
  | .elseC pre c t k post, st => by
    simp only [Ctx.plug, Stmts.exec_append, Stmts.exec_cons, Stmt.exec]
    rw [plug_skip ι k]
  | .caseC pre tgt before key k after post, st => by
    simp only [Ctx.plug, Stmts.exec_append, Stmts.exec_cons, Stmt.exec]
    rw [skip_cases _ key _ _ after (plug_skip ι k)]
  | .forC pre iv a b s k post, st => by
    simp only [Ctx.plug, Stmts.exec_append, Stmts.exec_cons, Stmt.exec]
    have : (fun (st : St) i => guardRun st ((k.plug (.other 0)).exec (withMark ι id) (setIter iv i st)))
      = (fun (st : St) i => guardRun st ((k.plug skip).exec (withMark ι id) (setIter iv i st))) := by
      funext st i; rw [plug_skip ι k]
    rw [this]

theorem plains_app {nb : Bool} : ∀ (a b : Stmts), PlainS nb a → PlainS nb b → PlainS nb (a ++ b)
  | .nil, _, _, hb => hb
  | .cons _ ss, b, ha, hb => ⟨ha.1, plains_app ss b ha.2 hb⟩

theorem plainc_cat {nb : Bool} : ∀ (a b : Cases), PlainC nb a → PlainC nb b → PlainC nb (Cases.cat a b)
  | .nil, _, _, hb => hb
  | .cons _ _ cs, b, ha, hb => ⟨ha.1, plainc_cat cs b ha.2 hb⟩

theorem plug_plain {nb : Bool} : ∀ (k : Ctx), k.Plain nb → PlainS nb (k.plug skip)
  | .here _ _, h => plains_app _ _ h.1 ⟨⟨trivial, trivial⟩, h.2⟩
  | .thenC _ _ k _ _, h => plains_app _ _ h.1 ⟨⟨plug_plain k h.2.1, h.2.2.1⟩, h.2.2.2⟩
  | .elseC _ _ _ k _, h => plains_app _ _ h.1 ⟨⟨h.2.1, plug_plain k h.2.2.1⟩, h.2.2.2⟩
  | .caseC _ _ _ _ k _ _, h => plains_app _ _ h.1 ⟨plainc_cat _ _ h.2.1 ⟨plug_plain k h.2.2.1, h.2.2.2.1⟩, h.2.2.2.2.1⟩
  | .forC _ _ _ _ _ k _, h => plains_app _ _ h.1 ⟨plug_plain k h.2.1, h.2.2⟩

/-- With nothing at the position the block keeps the values and does not stop. -/
theorem quiet (ι : Nat → St → St) (k : Ctx) (st : St) (h : k.Plain true) (hr : st.ctl = .run) :
    ((k.plug (.other 0)).exec (withMark ι id) st).ctl = .run ∧ ((k.plug (.other 0)).exec (withMark ι id) st).val = st.val := by
  rw [plug_skip ι k st]
  exact ⟨plains_ctl _ true _ st (plug_plain k h) hr, nbs_val _ _ st (plains_nb _ (plug_plain k h))⟩

/-- An unreached position changes nothing, and execution goes on with the same values. -/
theorem unreached (ι : Nat → St → St) (m : St → St) : ∀ (k : Ctx) (st : St), k.Plain true → k.LoopsRun → st.ctl = .run → ¬ Path st.val k →
    (k.plug (.other 0)).exec (withMark ι m) st = (k.plug (.other 0)).exec (withMark ι id) st
  | .here _ _, st, _, _, _, hp => absurd (fun _ h => nomatch h) hp
  | .thenC pre c k e post, st, h, hl, hr, hp => by
    simp only [Ctx.plug, Stmts.exec_append, Stmts.exec_cons]
    rw [plains_iota (withMark ι m) (withMark ι id) true pre st h.1, plains_iota (withMark ι m) (withMark ι id) true post _ h.2.2.2]
    obtain ⟨h1, h2⟩ := pre_state (withMark ι id) h.1 hr
    revert h1 h2
    generalize pre.exec (withMark ι id) st = st'
    intro h1 h2
    congr 1
    simp only [Stmt.exec, guardRun_run h1]
    split
    · next hc =>
      refine unreached ι m k st' h.2.1 hl h1 (fun hk => hp (path_snoc.2 ⟨?_, ?_⟩))
      · rw [h2] at hc; exact hc
      · rw [h2] at hk; exact hk
    · exact plains_iota _ _ true e st' h.2.2.1
  | .elseC pre c t k post, st, h, hl, hr, hp => by
    simp only [Ctx.plug, Stmts.exec_append, Stmts.exec_cons]
    rw [plains_iota (withMark ι m) (withMark ι id) true pre st h.1, plains_iota (withMark ι m) (withMark ι id) true post _ h.2.2.2]
    obtain ⟨h1, h2⟩ := pre_state (withMark ι id) h.1 hr
    revert h1 h2
    generalize pre.exec (withMark ι id) st = st'
    intro h1 h2
    congr 1
    simp only [Stmt.exec, guardRun_run h1]
    split
    · exact plains_iota _ _ true t st' h.2.1
    · next hc =>
      refine unreached ι m k st' h.2.2.1 hl h1 (fun hk => hp (path_snoc.2 ⟨?_, ?_⟩))
      · rw [h2] at hc; exact Classical.not_not.1 hc
      · rw [h2] at hk; exact hk
  | .caseC pre tgt before key k after post, st, h, hl, hr, hp => by
    obtain ⟨hpre, hb, hk, ha, hpost, hnd⟩ := h
    simp only [Ctx.plug, Stmts.exec_append, Stmts.exec_cons]
    rw [plains_iota (withMark ι m) (withMark ι id) true pre st hpre, plains_iota (withMark ι m) (withMark ι id) true post _ hpost]
    obtain ⟨h1, h2⟩ := pre_state (withMark ι id) hpre hr
    revert h1 h2
    generalize pre.exec (withMark ι id) st = st'
    intro h1 h2
    congr 1
    simp only [Stmt.exec, guardRun_run h1]
    rw [List.map_append, List.map_cons] at hnd
    obtain ⟨hn1, hn2⟩ := nodup_mid hnd
    rw [Path, Ctx.levels, path_snoc, ← h2] at hp
    cases key with
    | some c =>
      by_cases hv : pattern tgt.width c = tgt.eval st'.val
      · have hb' : ∀ key ∈ keys before, key.map (pattern tgt.width) ≠ some (tgt.eval st'.val) := fun key hkey e =>
          hn1 (List.mem_map.2 ⟨key, hkey, by rw [e, Option.map_some, hv]⟩)
        rw [case_taken _ _ _ c _ after hv before id st' hb', case_taken _ _ _ c _ after hv before id st' hb']
        exact unreached ι m k st' hk hl h1 (fun hk' => hp ⟨hv, hk'⟩)
      · exact case_skipped _ _ true _ _ c _ after ha hv before id id st' hb rfl
    | none =>
      by_cases hv : ∃ c, some c ∈ keys before ++ keys after ∧ pattern tgt.width c = tgt.eval st'.val
      · exact default_skipped _ _ true _ _ _ after ha before id id st' hb hv
      · have hb' : ∀ key ∈ keys before ++ keys after, ∃ c, key = some c ∧ pattern tgt.width c ≠ tgt.eval st'.val := by
          intro key hkey
          cases key with
          | none => exact ((List.mem_append.1 hkey).elim (fun h => hn1 (List.mem_map.2 ⟨none, h, rfl⟩)) (fun h => hn2 (List.mem_map.2 ⟨none, h, rfl⟩))).elim
          | some c => exact ⟨c, rfl, fun e => hv ⟨c, hkey, e⟩⟩
        rw [default_taken _ _ _ _ after before id st' hb', default_taken _ _ _ _ after before id st' hb']
        refine unreached ι m k st' hk hl h1 (fun hk' => hp ⟨fun c hc e => hv ⟨c, ?_, e⟩, hk'⟩)
        rcases List.mem_append.1 hc with hc | hc
        · exact List.mem_append.2 (.inl hc)
        · rcases List.mem_cons.1 hc with hc | hc
          · cases hc
          · exact List.mem_append.2 (.inr hc)
  | .forC pre iv a b s k post, st, h, hl, hr, hp => by
    simp only [Ctx.plug, Stmts.exec_append, Stmts.exec_cons]
    rw [plains_iota (withMark ι m) (withMark ι id) true pre st h.1, plains_iota (withMark ι m) (withMark ι id) true post _ h.2.2]
    obtain ⟨h1, h2⟩ := pre_state (withMark ι id) h.1 hr
    revert h1 h2
    generalize pre.exec (withMark ι id) st = st'
    intro h1 h2
    congr 1
    simp only [Stmt.exec, guardRun_run h1]
    congr 1
    rw [Path, Ctx.levels, path_snoc, ← h2] at hp
    refine foldl_same (fun st : St => st.ctl = .run ∧ ∀ v, v ≠ iv → st.val v = st'.val v) _ _ (fun x i hx => ?_) _ st' ⟨h1, fun _ _ => rfl⟩
    simp only [guardRun_run hx.1]
    have hnp : ¬ Path (setIter iv i x).val k := fun hk => hp ⟨trivial, (path_congr k fun v hv => by
      have hne : v ≠ iv := fun e => hl.2.1 (e ▸ hv)
      simp only [setIter, if_neg hne]
      exact hx.2 v hne).1 hk⟩
    have hrun : (setIter iv i x).ctl = .run := hx.1
    have heq := unreached ι m k (setIter iv i x) h.2.1 hl.2.2 hrun hnp
    refine ⟨heq, ?_⟩
    rw [heq]
    -- with no effect at the position the rest is plain
    obtain ⟨hc, hv⟩ := quiet ι k (setIter iv i x) h.2.1 hrun
    refine ⟨hc, fun v hne => ?_⟩
    rw [hv]
    simp only [setIter, if_neg hne]
    exact hx.2 v hne

/-- A reached position that returns makes the whole block return. -/
theorem reached_ret (ι : Nat → St → St) (x : Nat) : ∀ (k : Ctx) (st : St), k.Plain true → k.LoopsRun → st.ctl = .run → Path st.val k →
    ((k.plug (.other 0)).exec (withMark ι fun st => { st with ctl := .ret x }) st).ctl = .ret x
  | .here pre post, st, h, _, hr, _ => by
    obtain ⟨h1, _⟩ := pre_state (withMark ι fun st => { st with ctl := .ret x }) h.1 hr
    simp only [Ctx.plug, Stmts.exec_append, Stmts.exec_cons, Stmt.exec, guardRun_run h1]
    rw [Stmts.exec_stop _ post _ (by simp [withMark])]
    simp [withMark]
  | .thenC pre c k e post, st, h, hl, hr, hp => by
    obtain ⟨h1, h2⟩ := pre_state (withMark ι fun st => { st with ctl := .ret x }) h.1 hr
    rw [Path, Ctx.levels, path_snoc, ← h2] at hp
    have hk := reached_ret ι x k _ h.2.1 hl h1 hp.2
    have hc : c.eval _ ≠ 0 := hp.1
    simp only [Ctx.plug, Stmts.exec_append, Stmts.exec_cons, Stmt.exec, guardRun_run h1]
    rw [if_pos hc, Stmts.exec_stop _ post _ (by rw [hk]; simp)]
    exact hk
  | .elseC pre c t k post, st, h, hl, hr, hp => by
    obtain ⟨h1, h2⟩ := pre_state (withMark ι fun st => { st with ctl := .ret x }) h.1 hr
    rw [Path, Ctx.levels, path_snoc, ← h2] at hp
    have hk := reached_ret ι x k _ h.2.2.1 hl h1 hp.2
    have hc : ¬ c.eval _ ≠ 0 := Classical.not_not.2 hp.1
    simp only [Ctx.plug, Stmts.exec_append, Stmts.exec_cons, Stmt.exec, guardRun_run h1]
    rw [if_neg hc, Stmts.exec_stop _ post _ (by rw [hk]; simp)]
    exact hk
  | .caseC pre tgt before key k after post, st, h, hl, hr, hp => by
    obtain ⟨hpre, hb, hkp, ha, hpost, hnd⟩ := h
    obtain ⟨h1, h2⟩ := pre_state (withMark ι fun st => { st with ctl := .ret x }) hpre hr
    rw [Path, Ctx.levels, path_snoc, ← h2] at hp
    have hk := reached_ret ι x k _ hkp hl h1 hp.2
    simp only [Ctx.plug, Stmts.exec_append, Stmts.exec_cons, Stmt.exec, guardRun_run h1]
    rw [List.map_append, List.map_cons] at hnd
    obtain ⟨hn1, hn2⟩ := nodup_mid hnd
    cases key with
    | some c =>
      have hv : pattern tgt.width c = tgt.eval _ := hp.1
      rw [case_taken _ _ _ c _ after hv before id _ (fun key hkey e => hn1 (List.mem_map.2 ⟨key, hkey, by rw [e, Option.map_some, hv]⟩)),
        Stmts.exec_stop _ post _ (by rw [hk]; simp)]
      exact hk
    | none =>
      have hv : ∀ c, some c ∈ keys before ++ none :: keys after → pattern tgt.width c ≠ tgt.eval _ := hp.1
      rw [default_taken _ _ _ _ after before id _ (fun key hkey => ?_), Stmts.exec_stop _ post _ (by rw [hk]; simp)]
      · exact hk
      · cases key with
        | none => exact ((List.mem_append.1 hkey).elim (fun h => hn1 (List.mem_map.2 ⟨none, h, rfl⟩)) (fun h => hn2 (List.mem_map.2 ⟨none, h, rfl⟩))).elim
        | some c =>
          exact ⟨c, rfl, hv c ((List.mem_append.1 hkey).elim (fun h => List.mem_append.2 (.inl h))
            (fun h => List.mem_append.2 (.inr (List.mem_cons_of_mem _ h))))⟩
  | .forC pre iv a b s k post, st, h, hl, hr, hp => by
    obtain ⟨h1, h2⟩ := pre_state (withMark ι fun st => { st with ctl := .ret x }) h.1 hr
    rw [Path, Ctx.levels, path_snoc, ← h2] at hp
    simp only [Ctx.plug, Stmts.exec_append, Stmts.exec_cons, Stmt.exec, guardRun_run h1]
    obtain ⟨i, is, his⟩ : ∃ i is, iterValues a b s = i :: is := by
      cases he : iterValues a b s with
      | nil => exact absurd he hl.1
      | cons i is => exact ⟨i, is, rfl⟩
    have hk := reached_ret ι x k (setIter iv i (pre.exec (withMark ι fun st => { st with ctl := .ret x }) st)) h.2.1 hl.2.2 h1
      ((path_congr k fun v hv => by
        have hne : v ≠ iv := fun e => hl.2.1 (e ▸ hv)
        simp only [setIter, if_neg hne]).1 hp.2)
    rw [his, List.foldl_cons, guardRun_run h1, foldl_stop _ (fun st a h => guardRun_stop h) _ _ (by rw [hk]; simp),
      Stmts.exec_stop _ post _ (by simp [endLoop, hk])]
    simp [endLoop, hk]

/-- Reaching a position means that all branches above it are taken. -/
theorem reached_iff (ι : Nat → St → St) (k : Ctx) (st : St) (h : k.Plain true) (hl : k.LoopsRun) (hr : st.ctl = .run) :
    Reached ι k st ↔ Path st.val k := by
  refine ⟨fun ⟨m, hm⟩ => Classical.byContradiction fun hp => hm (unreached ι m k st h hl hr hp), fun hp => ?_⟩
  refine ⟨fun st => { st with ctl := .ret 0 }, fun e => ?_⟩
  have h1 := reached_ret ι 0 k st h hl hr hp
  rw [e, (quiet ι k st h hr).1] at h1
  cases h1

/-! ### The condition -/

theorem and_value {l r e : Expr} (h : mkAnd l r = .ok e) (σ : Store) : e.eval σ ≠ 0 ↔ l.eval σ ≠ 0 ∧ r.eval σ ≠ 0 := by
  unfold mkAnd at h
  split at h
  · cases h
    simp [Expr.eval, BinOp.sem, b2n]
  · cases h

theorem not_value (c : Expr) (σ : Store) : Expr.eval σ (.un .not c) ≠ 0 ↔ c.eval σ = 0 := by
  simp [Expr.eval, UnOp.sem, b2n]

theorem eq_value (t : Expr) (c : Int) (σ : Store) : Expr.eval σ (.bin .eq t (.const t.width c)) ≠ 0 ↔ pattern t.width c = t.eval σ := by
  simp [Expr.eval, BinOp.sem, b2n]
  exact eq_comm

/-- The value of the condition built for a list of parents. -/
theorem getCond_value (σ : Store) : ∀ (ls : List Level) (oe : Option Expr), getCond ls = .ok oe →
    (∀ l ∈ ls, ∀ x, l.cond = .ok (some x) → (x.eval σ ≠ 0 ↔ l.Taken σ)) →
    ((∀ e, oe = some e → e.eval σ ≠ 0) ↔ ∀ l ∈ ls, l.Taken σ)
  | [], oe, h, _ => by
    cases h
    exact ⟨fun _ _ h => (nomatch h), fun _ _ h => (nomatch h)⟩
  | l :: ls, oe, h, hl => by
    simp only [getCond, Res.bind_eq_ok] at h
    obtain ⟨o, ho, h⟩ := h
    have hls := fun oe' h' => getCond_value σ ls oe' h' (fun l' hl' => hl l' (List.mem_cons_of_mem _ hl'))
    rw [List.forall_mem_cons]
    cases o with
    | none =>
      have hloop : l.Taken σ := by
        cases l with
        | loop => trivial
        | thn c => cases ho
        | els c => cases ho
        | case t all key =>
          cases key with
          | some c => cases ho
          | none =>
            simp only [Level.cond] at ho
            cases hd : defaultCond t all <;> rw [hd] at ho <;> cases ho
      exact (hls oe h).trans ⟨fun h' => ⟨hloop, h'⟩, fun h' => h'.2⟩
    | some x =>
      simp only [Res.bind_eq_ok] at h
      obtain ⟨rest, hrest, h⟩ := h
      have hx := hl l (List.mem_cons_self ..) x ho
      have hr := hls rest hrest
      cases rest with
      | none =>
        cases h
        constructor
        · intro he
          exact ⟨hx.1 (he x rfl), hr.1 (fun _ h => (nomatch h))⟩
        · intro h' e he
          cases he
          exact hx.2 h'.1
      | some r =>
        simp only [combine] at h
        cases hm : mkAnd x r with
        | ok y =>
          rw [hm] at h
          cases h
          have hv := and_value hm σ
          constructor
          · intro he
            obtain ⟨h1, h2⟩ := hv.1 (he y rfl)
            exact ⟨hx.1 h1, hr.1 (fun e he => by cases he; exact h2)⟩
          · intro h' e he
            cases he
            exact hv.2 ⟨hx.2 h'.1, hr.2 h'.2 r rfl⟩
        | throw _ => rw [hm] at h; cases h
        | ub => rw [hm] at h; cases h

theorem conditions_perm (all : List (Option Int)) : (conditions all).Perm (all.filterMap id) := List.mergeSort_perm _ _

/-- With one other case the default condition is right. -/
theorem default_one {tgt : Expr} {all : List (Option Int)} {x : Expr} (hx : defaultCond tgt all = .ok x) (h1 : (all.filterMap id).length = 1) (σ : Store) :
    x.eval σ ≠ 0 ↔ ∀ c, some c ∈ all → pattern tgt.width c ≠ tgt.eval σ := by
  have hp := conditions_perm all
  unfold defaultCond at hx
  cases hc : conditions all with
  | nil => rw [hc] at hx; cases hx
  | cons c l =>
    rw [hc] at hx hp
    have hlen := hp.length_eq
    rw [h1] at hlen
    have hl : l = [] := List.eq_nil_of_length_eq_zero (by simpa using hlen)
    subst hl
    cases hx
    have hmem : ∀ d, some d ∈ all ↔ d = c := fun d => by
      have : some d ∈ all ↔ d ∈ all.filterMap id := by simp [List.mem_filterMap]
      rw [this, ← hp.mem_iff, List.mem_singleton]
    simp only [orAll, List.foldl_nil, Expr.eval, BinOp.sem, b2n_ne_zero, bne_iff_ne]
    constructor
    · intro hne d hd e
      rw [(hmem d).1 hd] at e
      exact hne e.symm
    · intro h e
      exact h c ((hmem c).2 rfl) e.symm

theorem filterMap_none (l : List (Option Int)) (h : none ∉ l) : (l.filterMap id).length = l.length := by
  induction l with
  | nil => rfl
  | cons a l ih =>
    cases a with
    | none => exact absurd (List.mem_cons_self ..) h
    | some a => simp only [List.filterMap_cons, id, List.length_cons]; rw [ih (fun hm => h (List.mem_cons_of_mem _ hm))]

theorem few_levels {k : Ctx} {nb : Bool} (h : k.Plain nb) (hf : k.FewDefaults) (σ : Store) :
    ∀ l ∈ k.levels, ∀ x, l.cond = .ok (some x) → (x.eval σ ≠ 0 ↔ l.Taken σ) := by
  induction k with
  | here pre post => exact fun _ h => nomatch h
  | thenC pre c k e post ih =>
    intro l hl x hx
    rcases List.mem_append.1 hl with hl | hl
    · exact ih h.2.1 hf l hl x hx
    · rw [List.mem_singleton.1 hl] at hx ⊢
      cases hx; exact Iff.rfl
  | elseC pre c t k post ih =>
    intro l hl x hx
    rcases List.mem_append.1 hl with hl | hl
    · exact ih h.2.2.1 hf l hl x hx
    · rw [List.mem_singleton.1 hl] at hx ⊢
      cases hx; exact not_value c σ
  | caseC pre tgt before key k after post ih =>
    intro l hl x hx
    rcases List.mem_append.1 hl with hl | hl
    · exact ih h.2.2.1 hf.2 l hl x hx
    · rw [List.mem_singleton.1 hl] at hx ⊢
      cases key with
      | some c => cases hx; exact eq_value tgt c σ
      | none =>
        simp only [Level.cond] at hx
        cases hd : defaultCond tgt (keys before ++ none :: keys after) with
        | ok y =>
          rw [hd] at hx
          cases hx
          have hnd := h.2.2.2.2.2
          rw [List.map_append, List.map_cons] at hnd
          obtain ⟨hn1, hn2⟩ := nodup_mid hnd
          have hlen := hf.1 rfl
          refine default_one hd ?_ σ
          rw [List.filterMap_append, List.filterMap_cons]
          simp only [id]
          rw [← List.filterMap_append, filterMap_none _ (fun hm => ?_)]
          · exact hlen
          · exact (List.mem_append.1 hm).elim (fun h => hn1 (List.mem_map.2 ⟨none, h, rfl⟩)) (fun h => hn2 (List.mem_map.2 ⟨none, h, rfl⟩))
        | throw _ => rw [hd] at hx; cases hx
        | ub => rw [hd] at hx; cases hx
  | forC pre iv a b s k post ih =>
    intro l hl x hx
    rcases List.mem_append.1 hl with hl | hl
    · exact ih h.2.1 hf l hl x hx
    · rw [List.mem_singleton.1 hl] at hx
      cases hx

/-! ### C32 -/

/-- C32, partial: in a block with non-blocking assignments only, where enclosing loops run and do not feed the
conditions, and where a default case is accompanied by exactly one other case, the condition is true exactly when
control reaches the statement; a statement without a condition is always reached.
Missing: blocking assignments before the statement, default cases of larger switches (`default_value` says what they
get instead), loops that run zero times or whose variable is tested. -/
theorem enable_exact_partial (k : Ctx) (oe : Option Expr) (h : k.Plain true) (hl : k.LoopsRun) (hf : k.FewDefaults)
    (hk : enableCond k = .ok oe) (ι : Nat → St → St) (σ : Store) :
    Reached ι k (start σ) ↔ ∀ e, oe = some e → e.eval σ ≠ 0 := by
  rw [reached_iff ι k (start σ) h hl rfl]
  exact (getCond_value σ k.levels oe hk (few_levels h hf σ)).symm

/-- The position is directly in the block, perhaps inside loops: exactly then there is no condition. -/
def Ctx.Uncond : Ctx → Prop
  | .here _ _ => True
  | .forC _ _ _ _ _ k _ => k.Uncond
  | _ => False

theorem loops_only : ∀ (ls : List Level), getCond ls = .ok none ↔ ∀ l ∈ ls, l = .loop
  | [] => by simp [getCond]
  | l :: ls => by
    rw [List.forall_mem_cons, ← loops_only ls]
    cases l with
    | loop => simp [getCond, Level.cond]
    | thn c =>
      simp only [getCond, Level.cond, Res.ok_bind]
      constructor
      · intro h
        rw [Res.bind_eq_ok] at h
        obtain ⟨r, _, h⟩ := h
        cases r with
        | none => cases h
        | some r => simp only [combine] at h; cases hm : mkAnd c r <;> rw [hm] at h <;> cases h
      · rintro ⟨h, _⟩; cases h
    | els c =>
      simp only [getCond, Level.cond, Res.ok_bind]
      constructor
      · intro h
        rw [Res.bind_eq_ok] at h
        obtain ⟨r, _, h⟩ := h
        cases r with
        | none => cases h
        | some r => simp only [combine] at h; cases hm : mkAnd (.un .not c) r <;> rw [hm] at h <;> cases h
      · rintro ⟨h, _⟩; cases h
    | case t all key =>
      constructor
      · intro h
        simp only [getCond] at h
        rw [Res.bind_eq_ok] at h
        obtain ⟨o, ho, h⟩ := h
        have : ∃ x, o = some x := by
          cases key with
          | some c => cases ho; exact ⟨_, rfl⟩
          | none =>
            simp only [Level.cond] at ho
            cases hd : defaultCond t all <;> rw [hd] at ho <;> cases ho
            exact ⟨_, rfl⟩
        obtain ⟨x, rfl⟩ := this
        simp only at h
        rw [Res.bind_eq_ok] at h
        obtain ⟨r, _, h⟩ := h
        cases r with
        | none => cases h
        | some r => simp only [combine] at h; cases hm : mkAnd x r <;> rw [hm] at h <;> cases h
      · rintro ⟨h, _⟩; cases h

/-- Statements outside every `if` and `case` have no condition, all others do. -/
theorem no_condition_iff (k : Ctx) : enableCond k = .ok none ↔ k.Uncond := by
  rw [enableCond, loops_only]
  induction k with
  | here pre post => exact ⟨fun _ => trivial, fun _ _ h => nomatch h⟩
  | forC pre iv a b s k post ih =>
    simp only [Ctx.Uncond, Ctx.levels]
    rw [← ih]
    exact ⟨fun h l hl => h l (List.mem_append.2 (.inl hl)), fun h l hl => (List.mem_append.1 hl).elim (h l) List.mem_singleton.1⟩
  | thenC pre c k e post ih =>
    refine ⟨fun h => ?_, fun h => h.elim⟩
    cases h _ (List.mem_append.2 (.inr (List.mem_singleton.2 rfl)))
  | elseC pre c t k post ih =>
    refine ⟨fun h => ?_, fun h => h.elim⟩
    cases h _ (List.mem_append.2 (.inr (List.mem_singleton.2 rfl)))
  | caseC pre tgt before key k after post ih =>
    refine ⟨fun h => ?_, fun h => h.elim⟩
    cases h _ (List.mem_append.2 (.inr (List.mem_singleton.2 rfl)))

/-- Predicates are one bit wide, and a default case comes with another case. -/
def Ctx.OneBit : Ctx → Prop
  | .here _ _ => True
  | .thenC _ c k _ _ => c.width = 1 ∧ k.OneBit
  | .elseC _ _ _ k _ => k.OneBit
  | .caseC _ _ before key k after _ => (key = none → ∃ c, some c ∈ keys before ++ keys after) ∧ k.OneBit
  | .forC _ _ _ _ _ k _ => k.OneBit

def Level.OneBit (l : Level) : Prop := ∃ o, l.cond = .ok o ∧ ∀ x, o = some x → x.width = 1

theorem getCond_total : ∀ (ls : List Level), (∀ l ∈ ls, l.OneBit) → ∃ o, getCond ls = .ok o ∧ ∀ x, o = some x → x.width = 1
  | [], _ => ⟨none, rfl, fun _ h => nomatch h⟩
  | l :: ls, h => by
    obtain ⟨o, ho, hw⟩ := h l (List.mem_cons_self ..)
    obtain ⟨r, hr, hrw⟩ := getCond_total ls (fun l hl => h l (List.mem_cons_of_mem _ hl))
    cases o with
    | none => exact ⟨r, by simp only [getCond, ho, Res.ok_bind, hr], hrw⟩
    | some x =>
      have hx := hw x rfl
      cases r with
      | none => exact ⟨some x, by simp only [getCond, ho, Res.ok_bind, hr, combine], hw⟩
      | some y =>
        have hy := hrw y rfl
        refine ⟨some (.bin .land x y), by simp only [getCond, ho, Res.ok_bind, hr, combine, mkAnd, hx, hy, if_true, Res.map], fun z hz => ?_⟩
        cases hz
        simp [Expr.width, BinOp.isBool, hx]

/-- With one-bit predicates the pass does not throw and has no undefined behaviour. -/
theorem enable_total (k : Ctx) (h : k.OneBit) : ∃ o, enableCond k = .ok o := by
  have : ∀ l ∈ k.levels, l.OneBit := by
    induction k with
    | here pre post => exact fun _ h => nomatch h
    | thenC pre c k e post ih =>
      intro l hl
      rcases List.mem_append.1 hl with hl | hl
      · exact ih h.2 l hl
      · rw [List.mem_singleton.1 hl]; exact ⟨_, rfl, fun x hx => by cases hx; exact h.1⟩
    | elseC pre c t k post ih =>
      intro l hl
      rcases List.mem_append.1 hl with hl | hl
      · exact ih h l hl
      · rw [List.mem_singleton.1 hl]; exact ⟨_, rfl, fun x hx => by cases hx; rfl⟩
    | caseC pre tgt before key k after post ih =>
      intro l hl
      rcases List.mem_append.1 hl with hl | hl
      · exact ih h.2 l hl
      · rw [List.mem_singleton.1 hl]
        cases key with
        | some c => exact ⟨_, rfl, fun x hx => by cases hx; rfl⟩
        | none =>
          obtain ⟨c, hc⟩ := h.1 rfl
          have hp := conditions_perm (keys before ++ none :: keys after)
          have hm : c ∈ conditions (keys before ++ none :: keys after) := hp.mem_iff.2 (List.mem_filterMap.2 ⟨some c,
            (List.mem_append.1 hc).elim (fun h => List.mem_append.2 (.inl h)) (fun h => List.mem_append.2 (.inr (List.mem_cons_of_mem _ h))), rfl⟩)
          cases hcs : conditions (keys before ++ none :: keys after) with
          | nil => rw [hcs] at hm; cases hm
          | cons d l =>
            exact ⟨some (.bin .neq tgt (orAll tgt.width (.const tgt.width d) l)), by simp only [Level.cond, defaultCond, hcs, Res.map], fun x hx => by cases hx; rfl⟩
    | forC pre iv a b s k post ih =>
      intro l hl
      rcases List.mem_append.1 hl with hl | hl
      · exact ih h l hl
      · rw [List.mem_singleton.1 hl]; exact ⟨_, rfl, fun x hx => by cases hx⟩
  obtain ⟨o, ho, _⟩ := getCond_total k.levels this
  exact ⟨o, ho⟩

/-- What the default case of a switch with two or more other cases gets: a comparison with one. -/
theorem default_value {tgt : Expr} {all : List (Option Int)} {x : Expr} (hx : defaultCond tgt all = .ok x)
    (h2 : 2 ≤ (all.filterMap id).length) (hnd : ((all.filterMap id).map (pattern tgt.width)).Nodup) (σ : Store) :
    x.eval σ ≠ 0 ↔ tgt.eval σ ≠ 1 := by
  have hp := conditions_perm all
  have hor : ∀ (l : List Int) (f : Expr), 0 < l.length → Expr.eval σ (orAll tgt.width f l) =
      b2n (decide (f.eval σ ≠ 0 ∨ ∃ c ∈ l, pattern tgt.width c ≠ 0)) := by
    intro l
    induction l with
    | nil => intro f h; cases h
    | cons a l ih =>
      intro f _
      cases l with
      | nil => simp [orAll, Expr.eval, BinOp.sem, b2n]
      | cons b l =>
        have := ih (.bin .lor f (.const tgt.width a)) (by simp)
        simp only [orAll, List.foldl_cons] at this ⊢
        rw [this]
        congr 1
        rw [decide_eq_decide]
        have he : Expr.eval σ (.bin .lor f (.const tgt.width a)) ≠ 0 ↔ f.eval σ ≠ 0 ∨ pattern tgt.width a ≠ 0 := by
          simp only [Expr.eval, BinOp.sem, b2n_ne_zero, Bool.or_eq_true, bne_iff_ne]
        rw [he, or_assoc]
        refine or_congr_right ⟨fun h => ?_, fun ⟨c, hc, h⟩ => ?_⟩
        · rcases h with h | ⟨c, hc, h⟩
          · exact ⟨a, List.mem_cons_self .., h⟩
          · exact ⟨c, List.mem_cons_of_mem _ hc, h⟩
        · rcases List.mem_cons.1 hc with e | hc
          · exact .inl (e ▸ h)
          · exact .inr ⟨c, hc, h⟩
  unfold defaultCond at hx
  cases hc : conditions all with
  | nil => rw [hc] at hx; cases hx
  | cons c l =>
    rw [hc] at hx hp
    cases hx
    have hlen := hp.length_eq
    have hnd' := (hp.map (pattern tgt.width)).nodup_iff.2 hnd
    cases l with
    | nil => simp at hlen; omega
    | cons d l =>
      have hne : Expr.eval σ (.const tgt.width c) ≠ 0 ∨ ∃ e ∈ d :: l, pattern tgt.width e ≠ 0 := by
        simp only [List.map_cons, List.nodup_cons, List.mem_cons, not_or] at hnd'
        by_cases h0 : pattern tgt.width c = 0
        · exact .inr ⟨d, List.mem_cons_self .., fun e => hnd'.1.1 (by rw [h0, e])⟩
        · exact .inl h0
      simp only [Expr.eval.eq_5]
      rw [hor (d :: l) (.const tgt.width c) (by simp), decide_eq_true hne]
      simp [BinOp.sem, b2n]

/-! ### Examples and counterexamples -/

/-- `if (v0) begin v1 <= 1; case (v2) 2'd1: begin <here>; end 2'd2: …; endcase end` in the state v0 = 1, v2 = 1. -/
def exCtx : Ctx := .thenC .nil (.var 0 1) (.caseC (.cons (.assign true ⟨1, 0, 1⟩ (.const 1 1)) .nil) (.var 2 2) .nil (some 1) (.here .nil .nil)
  (.cons (some 2) .nil .nil) .nil) .nil .nil

example : exCtx.Plain true ∧ exCtx.LoopsRun ∧ exCtx.FewDefaults ∧ exCtx.OneBit ∧
    enableCond exCtx = .ok (some (.bin .land (.bin .eq (.var 2 2) (.const 2 1)) (.var 0 1))) := by
  refine ⟨?_, trivial, ⟨nofun, trivial⟩, ⟨rfl, nofun, trivial⟩, rfl⟩
  simp [exCtx, Ctx.Plain, PlainS, PlainC, Plain, keys, pattern, Expr.width]

/-- In this state the statement is reached. -/
example (ι : Nat → St → St) : Reached ι exCtx (start fun v => if v = 1 then 0 else 1) := by
  refine (enable_exact_partial exCtx _ (by simp [exCtx, Ctx.Plain, PlainS, PlainC, Plain, keys, pattern, Expr.width]) trivial ⟨nofun, trivial⟩ rfl ι _).2 ?_
  intro e he
  cases he
  decide

/-- `case (v) 2: …; 3: …; default: <here> endcase` -/
def exDefault : Ctx := .caseC .nil (.var 0 2) (.cons (some 2) .nil (.cons (some 3) .nil .nil)) none (.here .nil .nil) .nil .nil

theorem ex_default_cond : enableCond exDefault = .ok (some (.bin .neq (.var 0 2) (.bin .lor (.const 2 2) (.const 2 3)))) := by
  simp [enableCond, exDefault, Ctx.levels, keys, getCond, Level.cond, defaultCond, conditions, List.mergeSort, List.MergeSort.Internal.splitInTwo, orAll, combine, Res.map, Expr.width]

/-- `v0 = 0; if (v0) <here>` with a blocking assignment. -/
def exBlocking : Ctx := .thenC (.cons (.assign false ⟨0, 0, 1⟩ (.const 1 0)) .nil) (.var 0 1) (.here .nil .nil) .nil .nil

/-- A blocking assignment before the statement changes the predicate: the condition holds at the start of the block,
the statement is never reached. -/
theorem blocking_not_seen : exBlocking.Plain false ∧ enableCond exBlocking = .ok (some (.var 0 1)) ∧
    Expr.eval (fun _ => 1) (.var 0 1) ≠ 0 ∧ ∀ ι, ¬ Reached ι exBlocking (start fun _ => 1) := by
  refine ⟨by simp [exBlocking, Ctx.Plain, PlainS, Plain], rfl, by decide, fun ι ⟨m, hm⟩ => hm ?_⟩
  simp [exBlocking, Ctx.plug, Stmts.exec, Stmt.exec, guardRun, start, Expr.eval, Store.write, setBits, pattern]

/-- A predicate of two bits inside an `if` on one bit: the pass throws. -/
theorem wide_predicate_refused : enableCond (.thenC .nil (.var 0 1) (.thenC .nil (.var 1 2) (.here .nil .nil) .nil .nil) .nil .nil) = .throw .var := rfl

/-- A switch with nothing but a default case: undefined behaviour. -/
theorem lone_default_ub : enableCond (.caseC .nil (.var 0 2) .nil none (.here .nil .nil) .nil .nil) = .ub := by
  simp [enableCond, Ctx.levels, keys, getCond, Level.cond, defaultCond, conditions, Res.map, Res.bind]

/-- The default case of a switch on a two-bit variable with cases 2 and 3: when the variable is 2 the condition holds
although case 2 runs. -/
theorem not_EnableClaim : ¬ EnableClaim := by
  intro h
  have hp : exDefault.Plain true := by simp [exDefault, Ctx.Plain, PlainS, PlainC, Plain, keys, pattern, Expr.width]
  have hp' : exDefault.Plain false := by simp [exDefault, Ctx.Plain, PlainS, PlainC, Plain, keys, pattern, Expr.width]
  have := (h exDefault _ hp' ex_default_cond (fun _ st => st) (fun _ => 2)).2 (fun e he => by cases he; decide)
  rw [reached_iff _ _ _ hp trivial rfl] at this
  exact this _ (List.mem_append.2 (.inr (List.mem_singleton.2 rfl))) 2 (by simp [keys]) rfl

end Kratos.Enable
