import Verif.Ir.Reads
import Verif.Pass.Fanout

/-!
# Dead code elimination (property C22)

Models `remove_unused_vars` (src/optimize.cc:1065-1102), `remove_unused_stmts` (:1104-1130), `dead_code_elimination`
(:1132-1238) and the register of readers and drivers they consult (src/stmt.cc:207-216, src/expr.cc:703-720, 1241-1263, 1742-1802).

The whole design is modelled flattened: one name space, all processes in one list, each with the generator it belongs to.
Not modelled: `remove_empty_block`, which runs last (property C15), variable indices on the left of an assignment, thread scheduling.
-/

namespace Kratos.Dead

open Kratos.Ir
open Kratos.Fanout (Dir)

/-! ### Model -/

mutual
/-- Statements.  `assign` has several targets when its left side is a concatenation (src/expr.cc:1241-1245); `call` is a function call
statement or an assertion: it reads its arguments and has an observable effect, but is no assignment, so it is not in the register. -/
inductive S where
  | assign (nb : Bool) (ls : List LVal) (r : Expr)
  | ite (c : Expr) (t e : Ss)
  | switch (tgt : Expr) (cs : Cs)
  | for_ (iv : VarId) (a b s : Int) (body : Ss)
  | call (n : Nat) (args : List VarId)
inductive Ss where
  | nil
  | cons (s : S) (ss : Ss)
inductive Cs where
  | nil
  | cons (label : Option Int) (body : Ss) (cs : Cs)
end

/-- A process: an assignment or `always_comb` block (no events) or an `always_ff` block with its event controls (`true`: rising edge). -/
structure Proc where
  owner : Nat
  events : List (Bool × VarId)
  body : Ss

/-- Does the assignment have `v` among its targets? -/
def hits (v : VarId) (ls : List LVal) : Bool := ls.any fun l => l.v == v

mutual
/-- `v->sinks()` is not empty because of this statement: right sides, conditions and switch targets (src/stmt.cc:240-243, 529-531). -/
def S.reads (v : VarId) : S → Bool
  | .assign _ _ r => r.reads v
  | .ite c t e => c.reads v || (t.reads v || e.reads v)
  | .switch tgt cs => tgt.reads v || cs.reads v
  | .for_ _ _ _ _ body => body.reads v
  | .call _ _ => false
def Ss.reads (v : VarId) : Ss → Bool
  | .nil => false
  | .cons s ss => s.reads v || ss.reads v
def Cs.reads (v : VarId) : Cs → Bool
  | .nil => false
  | .cons _ b cs => b.reads v || cs.reads v
end

mutual
/-- An assignment reads `v` (as opposed to a condition). -/
def S.copies (v : VarId) : S → Bool
  | .assign _ _ r => r.reads v
  | .ite _ t e => t.copies v || e.copies v
  | .switch _ cs => cs.copies v
  | .for_ _ _ _ _ body => body.copies v
  | .call _ _ => false
def Ss.copies (v : VarId) : Ss → Bool
  | .nil => false
  | .cons s ss => s.copies v || ss.copies v
def Cs.copies (v : VarId) : Cs → Bool
  | .nil => false
  | .cons _ b cs => b.copies v || cs.copies v
end

mutual
/-- `v->sources()` is not empty because of this statement. -/
def S.writes (v : VarId) : S → Bool
  | .assign _ ls _ => hits v ls
  | .ite _ t e => t.writes v || e.writes v
  | .switch _ cs => cs.writes v
  | .for_ _ _ _ _ body => body.writes v
  | .call _ _ => false
def Ss.writes (v : VarId) : Ss → Bool
  | .nil => false
  | .cons s ss => s.writes v || ss.writes v
def Cs.writes (v : VarId) : Cs → Bool
  | .nil => false
  | .cons _ b cs => b.writes v || cs.writes v
end

mutual
/-- Erase the assignments selected by `f` from their blocks (`Stmt::remove_from_parent`, src/stmt.cc:83-94). -/
def S.cut (f : List LVal → Expr → Bool) : S → S
  | .assign nb ls r => .assign nb ls r
  | .ite c t e => .ite c (t.cut f) (e.cut f)
  | .switch tgt cs => .switch tgt (cs.cut f)
  | .for_ iv a b s body => .for_ iv a b s (body.cut f)
  | .call n as => .call n as
def Ss.cut (f : List LVal → Expr → Bool) : Ss → Ss
  | .nil => .nil
  | .cons (.assign nb ls r) ss => if f ls r then ss.cut f else .cons (.assign nb ls r) (ss.cut f)
  | .cons s ss => .cons (s.cut f) (ss.cut f)
def Cs.cut (f : List LVal → Expr → Bool) : Cs → Cs
  | .nil => .nil
  | .cons l b cs => .cons l (b.cut f) (cs.cut f)
end

/-- The statements taken out by `remove_var(v)`, src/optimize.cc:1183-1201: those that drive `v`, and the assignments that read `v`. -/
def goes (v : VarId) (ls : List LVal) (r : Expr) : Bool := hits v ls || r.reads v

/-- Variables read through a slice: `VarSlice::remove_sink` (src/expr.cc:1767-1770) calls `remove_source` on its parent, so the reader
stays registered. -/
def slicedIn (under : Bool) : Expr → List VarId
  | .var v _ => if under then [v] else []
  | .const _ _ => []
  | .slice e _ _ => slicedIn true e
  | .un _ e => slicedIn false e
  | .bin _ l r => slicedIn false l ++ slicedIn false r
  | .cond p l r => slicedIn false p ++ (slicedIn false l ++ slicedIn false r)
  | .concat l r => slicedIn false l ++ slicedIn false r
  | .extend _ e => slicedIn false e
  | .dup _ e => slicedIn false e

def sliced (e : Expr) : List VarId := slicedIn false e

/-- Variables read as a whole: their entry in the register is erased with the statement. -/
def whole : Expr → List VarId
  | .var v _ => [v]
  | .const _ _ => []
  | .slice _ _ _ => []
  | .un _ e => whole e
  | .bin _ l r => whole l ++ whole r
  | .cond p l r => whole p ++ (whole l ++ whole r)
  | .concat l r => whole l ++ whole r
  | .extend _ e => whole e
  | .dup _ e => whole e

/-- Stale entries left by erasing an assignment with right side `r`. -/
def stale (r : Expr) : List VarId := (sliced r).filter fun v => !(whole r).contains v

mutual
def S.staleOf (v : VarId) : S → List VarId
  | .assign _ ls r => if hits v ls then stale r else []
  | .ite _ t e => t.staleOf v ++ e.staleOf v
  | .switch _ cs => cs.staleOf v
  | .for_ _ _ _ _ body => body.staleOf v
  | .call _ _ => []
def Ss.staleOf (v : VarId) : Ss → List VarId
  | .nil => []
  | .cons s ss => s.staleOf v ++ ss.staleOf v
def Cs.staleOf (v : VarId) : Cs → List VarId
  | .nil => []
  | .cons _ b cs => b.staleOf v ++ cs.staleOf v
end

/-- The design while the pass runs: processes, stale entries, variables removed so far. -/
structure D where
  procs : List Proc
  stale : List VarId
  gone : List VarId

def D.reads (d : D) (v : VarId) : Bool := d.procs.any fun p => p.body.reads v
def D.writes (d : D) (v : VarId) : Bool := d.procs.any fun p => p.body.writes v

/-- `!var->sinks().empty()`. -/
def D.sink (d : D) (v : VarId) : Bool := d.reads v || d.stale.contains v

/-- `remove_var`, src/optimize.cc:1180-1207. -/
def D.remove (d : D) (v : VarId) : D :=
  ⟨d.procs.map fun p => { p with body := p.body.cut (goes v) }, d.stale ++ d.procs.flatMap (fun p => p.body.staleOf v), v :: d.gone⟩

/-- A generator: its number, whether it is the top, its plain variables in the order of `get_vars` and its ports. -/
structure Gen where
  id : Nat
  top : Bool
  vars : List VarId
  ports : List (VarId × Dir)

/-- The loop `while (changed)`, src/optimize.cc:1137-1152: remove the first variable without sinks and start over.  Each turn takes one
variable away, so the number of variables bounds the turns. -/
def varLoop : Nat → List VarId → D → D
  | 0, _, d => d
  | n + 1, vs, d =>
    match vs.find? (fun v => !d.sink v) with
    | some v => varLoop n (vs.erase v) (d.remove v)
    | none => d

/-- Which ports go, src/optimize.cc:1165-1174. -/
def useless (d : D) (p : VarId × Dir) : Bool :=
  match p.2 with
  | .inp => !d.sink p.1
  | .out => !d.writes p.1
  | .inout => false

/-- `clear_out_ports`, src/optimize.cc:1160-1181. -/
def clearPorts (g : Gen) (d : D) : D :=
  if g.top then d else (g.ports.filter (useless d)).foldl (fun d p => d.remove p.1) d

/-- `DeadCodeVarElimination::visit`, src/optimize.cc:1135-1158. -/
def visitGen (d : D) (g : Gen) : D := clearPorts g (varLoop g.vars.length g.vars d)

/-- First half of `dead_code_elimination`: the generators, children first. -/
def deadVars (gs : List Gen) (d : D) : D := gs.foldl visitGen d

/-- Has the generator any port left? -/
def portless (d : D) (g : Gen) : Bool := g.ports.all fun p => d.gone.contains p.1

/-- `DeadCodeInstanceElimination`, src/optimize.cc:1209-1224: an instance without ports goes with everything inside. -/
def dropInstance (inside : Nat → Nat → Bool) (g : Gen) (d : D) : D :=
  if !g.top && portless d g then
    { d with procs := d.procs.map fun p => if inside g.id p.owner then ⟨p.owner, [], .nil⟩ else p }
  else d

def dropInstances (inside : Nat → Nat → Bool) (gs : List Gen) (d : D) : D := gs.foldl (fun d g => dropInstance inside g d) d

/-- `dead_code_elimination` without the final clean-up of empty blocks. -/
def deadCode (inside : Nat → Nat → Bool) (gs : List Gen) (ps : List Proc) : D := dropInstances inside gs (deadVars gs ⟨ps, [], []⟩)

/-- `remove_unused_vars`, src/optimize.cc:1067-1096: plain variables without readers and drivers. -/
def unusedVars (ps : List Proc) (vs : List VarId) : List VarId := vs.filter fun v => !(D.mk ps [] []).sink v && !(D.mk ps [] []).writes v

def Ss.isEmpty : Ss → Bool
  | .nil => true
  | .cons _ _ => false

/-- `remove_unused_stmts`, src/optimize.cc:1104-1130: empty blocks at the top. -/
def unusedStmts (ps : List Proc) : List Proc := ps.filter fun p => !p.body.isEmpty

/-! ### Specification: what the design does -/

structure St where
  val : Store
  nba : List (LVal × Nat)
  log : List (Nat × List Nat)

/-- The parts of `x` for the targets of `{l₁, …, lₙ} = x`; the last one gets the lowest bits. -/
def parts : List LVal → Nat → List (LVal × Nat)
  | [], _ => []
  | l :: ls, x => (l, x / 2 ^ (ls.map LVal.len).sum) :: parts ls x

def apply (σ : Store) (ws : List (LVal × Nat)) : Store := ws.foldl (fun σ p => σ.write p.1 p.2) σ

def setVar (v : VarId) (x : Nat) (st : St) : St := { st with val := fun u => if u = v then x else st.val u }

/-- The loop variable goes out of scope. -/
def restore (v : VarId) (old st : St) : St := { st with val := fun u => if u = v then old.val v else st.val u }

mutual
def S.exec : S → St → St
  | .assign nb ls r, st =>
      if nb then { st with nba := st.nba ++ parts ls (r.eval st.val) }
      else { st with val := apply st.val (parts ls (r.eval st.val)) }
  | .ite c t e, st => if c.eval st.val ≠ 0 then t.exec st else e.exec st
  | .switch tgt cs, st => cs.exec tgt.width (tgt.eval st.val) id st
  | .for_ iv a b s body, st => restore iv st ((iterValues a b s).foldl (fun st i => body.exec (setVar iv (pattern 32 i) st)) st)
  | .call n as, st => { st with log := st.log ++ [(n, as.map st.val)] }
def Ss.exec : Ss → St → St
  | .nil, st => st
  | .cons s ss, st => ss.exec (s.exec st)
def Cs.exec : Cs → Nat → Nat → (St → St) → St → St
  | .nil, _, _, k, st => k st
  | .cons none b cs, w, v, _, st => cs.exec w v (fun st => b.exec st) st
  | .cons (some c) b cs, w, v, k, st => if pattern w c = v then b.exec st else cs.exec w v k st
end

/-- Has the event happened since the store was `old`? -/
def fired (old new : Store) (e : Bool × VarId) : Bool :=
  if e.1 then old e.2 % 2 == 0 && new e.2 % 2 == 1 else old e.2 % 2 == 1 && new e.2 % 2 == 0

/-- One step of a run.  `poke`: the environment changes a variable.  `run i`: process `i`, without event control, is executed.
`tick`: every process with an event that happened since the last tick is executed, then the pending assignments take effect. -/
inductive Step where
  | poke (v : VarId) (x : Nat)
  | run (i : Nat)
  | tick

structure Run where
  st : St
  last : Store

def runProc (ps : List Proc) (i : Nat) (st : St) : St :=
  match ps[i]? with
  | some p => if p.events.isEmpty then p.body.exec st else st
  | none => st

def tickProcs (ps : List Proc) (old : Store) (st : St) : St :=
  ps.foldl (fun s p => if p.events.any (fired old st.val) then p.body.exec s else s) st

def doStep (ps : List Proc) (r : Run) : Step → Run
  | .poke v x => { r with st := setVar v x r.st }
  | .run i => { r with st := runProc ps i r.st }
  | .tick =>
    let s := tickProcs ps r.last r.st
    let s' : St := { s with val := apply s.val s.nba, nba := [] }
    ⟨s', s'.val⟩

/-- A run: any schedule from any store. -/
def runs (ps : List Proc) (σ : Store) (sched : List Step) : Run := sched.foldl (doStep ps) ⟨⟨σ, [], []⟩, σ⟩

/-- Full claim (C22): whatever the schedule, every variable that was not removed has the value it would have had, and every call is made
with the same arguments. -/
def DeadClaim : Prop := ∀ (inside : Nat → Nat → Bool) (gs : List Gen) (ps : List Proc) (σ : Store) (sched : List Step),
  (∀ v, (deadCode inside gs ps).gone.contains v = false →
    (runs (deadCode inside gs ps).procs σ sched).st.val v = (runs ps σ sched).st.val v) ∧
  (runs (deadCode inside gs ps).procs σ sched).st.log = (runs ps σ sched).st.log

mutual
/-- Every assignment has one target. -/
def S.single : S → Prop
  | .assign _ ls _ => ls.length = 1
  | .ite _ t e => t.single ∧ e.single
  | .switch _ cs => cs.single
  | .for_ _ _ _ _ body => body.single
  | .call _ _ => True
def Ss.single : Ss → Prop
  | .nil => True
  | .cons s ss => s.single ∧ ss.single
def Cs.single : Cs → Prop
  | .nil => True
  | .cons _ b cs => b.single ∧ cs.single
end

mutual
/-- Variables read by calls. -/
def S.args (v : VarId) : S → Bool
  | .assign _ _ _ => false
  | .ite _ t e => t.args v || e.args v
  | .switch _ cs => cs.args v
  | .for_ _ _ _ _ body => body.args v
  | .call _ as => as.contains v
def Ss.args (v : VarId) : Ss → Bool
  | .nil => false
  | .cons s ss => s.args v || ss.args v
def Cs.args (v : VarId) : Cs → Bool
  | .nil => false
  | .cons _ b cs => b.args v || cs.args v
end

/-- Readers that are in no register: event controls and arguments of calls. -/
def Hidden (ps : List Proc) (v : VarId) : Prop := ∃ p ∈ ps, (∃ b, (b, v) ∈ p.events) ∨ p.body.args v = true

/-- The variables the pass may remove. -/
def Candidate (gs : List Gen) (v : VarId) : Prop := ∃ g ∈ gs, v ∈ g.vars ∨ (g.top = false ∧ ∃ d, (v, d) ∈ g.ports)

/-- The designs for which the claim is proved: one target per assignment, no removable variable is used by an event control or a call,
no assignment reads an undriven output port of an instance. -/
structure Plain (gs : List Gen) (ps : List Proc) : Prop where
  single : ∀ p ∈ ps, p.body.single
  seen : ∀ v, Candidate gs v → ¬ Hidden ps v
  driven : ∀ g ∈ gs, g.top = false → ∀ v, (v, Dir.out) ∈ g.ports → (∃ p ∈ ps, p.body.writes v = true) ∨ ∀ p ∈ ps, p.body.copies v = false

/-- Scope of variables: what is driven inside an instance and used outside is a port of the instance. -/
def Scoped (inside : Nat → Nat → Bool) (gs : List Gen) (ps : List Proc) : Prop :=
  ∀ g ∈ gs, g.top = false → ∀ p ∈ ps, inside g.id p.owner = true → ∀ q ∈ ps, inside g.id q.owner = false →
    ∀ v, p.body.writes v = true → (q.body.reads v = true ∨ q.body.args v = true ∨ ∃ b, (b, v) ∈ q.events) → ∃ d, (v, d) ∈ g.ports

/-! ### Proof: executions agree -/

/-- Equal except for the variables in `R`; the logs are compared if `L`. -/
structure Agree (R : VarId → Bool) (L : Prop) (st st' : St) : Prop where
  val : ∀ v, R v = false → st'.val v = st.val v
  nba : st'.nba.filter (fun p => !R p.1.v) = st.nba.filter (fun p => !R p.1.v)
  log : L → st'.log = st.log

section
variable {R : VarId → Bool} {L : Prop}

theorem Agree.refl (st : St) : Agree R L st st := ⟨fun _ _ => rfl, rfl, fun _ => rfl⟩

theorem Agree.eval {st st' : St} (h : Agree R L st st') {e : Expr} (he : ∀ v, e.reads v = true → R v = false) : e.eval st'.val = e.eval st.val :=
  Expr.eval_congr e fun x hx => h.val x (he x hx)

theorem Agree.setVar {st st' : St} (h : Agree R L st st') (v : VarId) (x : Nat) : Agree R L (setVar v x st) (Dead.setVar v x st') := by
  refine ⟨fun u hu => ?_, h.nba, h.log⟩
  simp only [Dead.setVar]
  split
  · rfl
  · exact h.val u hu

theorem Agree.restore {old old' st st' : St} (h0 : Agree R L old old') (h : Agree R L st st') (v : VarId) :
    Agree R L (restore v old st) (Dead.restore v old' st') := by
  refine ⟨fun u hu => ?_, h.nba, h.log⟩
  simp only [Dead.restore]
  split
  · rename_i e; subst e; exact h0.val u hu
  · exact h.val u hu

theorem apply_cons (σ : Store) (p : LVal × Nat) (ws : List (LVal × Nat)) : apply σ (p :: ws) = apply (σ.write p.1 p.2) ws := rfl

/-- Writes into `R` change nothing elsewhere. -/
theorem apply_filter : ∀ (ws : List (LVal × Nat)) (σ τ : Store), (∀ v, R v = false → τ v = σ v) →
    ∀ v, R v = false → apply τ (ws.filter fun p => !R p.1.v) v = apply σ ws v
  | [], _, _, h => h
  | p :: ws, σ, τ, h => by
    rw [apply_cons, List.filter_cons]
    cases hp : R p.1.v with
    | false =>
      simp only [Bool.not_false, if_true, apply_cons]
      refine apply_filter ws _ _ (fun v hv => ?_)
      unfold Store.write
      split
      · rename_i e; rw [h v hv]
      · exact h v hv
    | true =>
      simp only [Bool.not_true, Bool.false_eq_true, if_false]
      refine apply_filter ws _ _ (fun v hv => ?_)
      rw [Store.write_ne (fun e => by rw [e, hp] at hv; cases hv)]
      exact h v hv

theorem apply_agree {ws ws' : List (LVal × Nat)} {σ τ : Store} (h : ∀ v, R v = false → τ v = σ v)
    (hw : ws'.filter (fun p => !R p.1.v) = ws.filter fun p => !R p.1.v) : ∀ v, R v = false → apply τ ws' v = apply σ ws v := by
  intro v hv
  rw [← apply_filter ws' τ τ (fun _ _ => rfl) v hv, hw]
  exact apply_filter ws σ τ h v hv

theorem parts_filter (ls : List LVal) (x : Nat) (h : ∀ l ∈ ls, R l.v = true) : (parts ls x).filter (fun p => !R p.1.v) = [] := by
  induction ls generalizing x with
  | nil => rfl
  | cons l ls ih =>
    rw [parts, List.filter_cons, h l (List.mem_cons_self ..)]
    exact ih x fun l hl => h l (List.mem_cons_of_mem _ hl)

theorem assign_agree {st st' : St} (h : Agree R L st st') {nb : Bool} {ls : List LVal} {r : Expr} (hr : ∀ v, r.reads v = true → R v = false) :
    Agree R L ((S.assign nb ls r).exec st) ((S.assign nb ls r).exec st') := by
  simp only [S.exec, h.eval hr]
  cases nb with
  | true =>
    refine ⟨h.val, ?_, h.log⟩
    simp only [if_true, List.filter_append, h.nba]
  | false => exact ⟨apply_agree h.val rfl, h.nba, h.log⟩

theorem assign_dropped {st st' : St} (h : Agree R L st st') {nb : Bool} {ls : List LVal} {r : Expr} (hl : ∀ l ∈ ls, R l.v = true) :
    Agree R L ((S.assign nb ls r).exec st) st' := by
  simp only [S.exec]
  cases nb with
  | true =>
    refine ⟨h.val, ?_, h.log⟩
    simp only [if_true, List.filter_append, h.nba, parts_filter ls _ hl, List.append_nil]
  | false =>
    refine ⟨fun v hv => ?_, h.nba, h.log⟩
    simp only [Bool.false_eq_true, if_false]
    exact apply_agree (R := R) (ws' := []) h.val (by rw [parts_filter ls _ hl]; rfl) v hv

theorem foldl_agree {α : Type} (l : List α) {f g : St → α → St} (hf : ∀ a st st', Agree R L st st' → Agree R L (f st a) (g st' a)) :
    ∀ {st st' : St}, Agree R L st st' → Agree R L (l.foldl f st) (l.foldl g st') := by
  induction l with
  | nil => exact fun h => h
  | cons a l ih => exact fun h => ih (hf a _ _ h)

variable {f : List LVal → Expr → Bool}

mutual
/-- What is erased only drives variables of `R`. -/
def S.safe (R : VarId → Bool) (f : List LVal → Expr → Bool) : S → Prop
  | .assign _ ls r => f ls r = true → ∀ l ∈ ls, R l.v = true
  | .ite _ t e => t.safe R f ∧ e.safe R f
  | .switch _ cs => cs.safe R f
  | .for_ _ _ _ _ body => body.safe R f
  | .call _ _ => True
def Ss.safe (R : VarId → Bool) (f : List LVal → Expr → Bool) : Ss → Prop
  | .nil => True
  | .cons s ss => s.safe R f ∧ ss.safe R f
def Cs.safe (R : VarId → Bool) (f : List LVal → Expr → Bool) : Cs → Prop
  | .nil => True
  | .cons _ b cs => b.safe R f ∧ cs.safe R f
end

mutual
theorem S.cut_agree : ∀ (s : S) (st st' : St), s.safe R f → (∀ v, s.reads v = true ∨ s.args v = true → R v = false) → Agree R L st st' →
    Agree R L (s.exec st) ((s.cut f).exec st')
  | .assign nb ls r, st, st', _, hr, h => by
    rw [S.cut]
    exact assign_agree h fun v hv => hr v (.inl hv)
  | .ite c t e, st, st', hs, hr, h => by
    rw [S.cut]
    simp only [S.exec]
    rw [h.eval fun v hv => hr v (.inl (by simp [S.reads, hv]))]
    split
    · exact t.cut_agree st st' hs.1 (fun v hv => hr v (hv.imp (by simp +contextual [S.reads]) (by simp +contextual [S.args]))) h
    · exact e.cut_agree st st' hs.2 (fun v hv => hr v (hv.imp (by simp +contextual [S.reads]) (by simp +contextual [S.args]))) h
  | .switch tgt cs, st, st', hs, hr, h => by
    rw [S.cut]
    simp only [S.exec]
    rw [h.eval fun v hv => hr v (.inl (by simp [S.reads, hv]))]
    exact cs.cut_agree _ _ id id (fun _ _ h => h) st st' hs (fun v hv => hr v (hv.imp (by simp +contextual [S.reads]) (by simp +contextual [S.args]))) h
  | .for_ iv a b s body, st, st', hs, hr, h => by
    rw [S.cut]
    simp only [S.exec]
    exact h.restore (foldl_agree _ (fun i st st' h => body.cut_agree _ _ hs (fun v hv => hr v (hv.imp (by simp [S.reads]) (by simp [S.args]))) (h.setVar iv (pattern 32 i))) h) iv
  | .call n as, st, st', _, hr, h => by
    rw [S.cut]
    simp only [S.exec]
    refine ⟨h.val, h.nba, fun hl => ?_⟩
    simp only [h.log hl]
    have : as.map st'.val = as.map st.val := List.map_congr_left fun v hv => h.val v (hr v (.inr (by simp [S.args, hv])))
    rw [this]
theorem Ss.cut_agree : ∀ (ss : Ss) (st st' : St), ss.safe R f → (∀ v, ss.reads v = true ∨ ss.args v = true → R v = false) → Agree R L st st' →
    Agree R L (ss.exec st) ((ss.cut f).exec st')
  | .nil, st, st', _, _, h => by simpa [Ss.exec, Ss.cut] using h
  | .cons (.assign nb ls r) ss, st, st', hs, hr, h => by
    rw [Ss.cut]
    have hr' : ∀ v, ss.reads v = true ∨ ss.args v = true → R v = false :=
      fun v hv => hr v (hv.imp (by simp +contextual [Ss.reads]) (by simp +contextual [Ss.args]))
    split
    · rename_i hf
      rw [Ss.exec]
      exact ss.cut_agree _ _ hs.2 hr' (assign_dropped h (hs.1 hf))
    · rw [Ss.exec, Ss.exec]
      exact ss.cut_agree _ _ hs.2 hr' (assign_agree h fun v hv => hr v (.inl (by simp [Ss.reads, S.reads, hv])))
  | .cons (.ite c t e) ss, st, st', hs, hr, h => by
    rw [Ss.cut, Ss.exec, Ss.exec]
    · exact ss.cut_agree _ _ hs.2 (fun v hv => hr v (hv.imp (by simp +contextual [Ss.reads]) (by simp +contextual [Ss.args])))
        (S.cut_agree (.ite c t e) st st' hs.1 (fun v hv => hr v (hv.imp (by rw [Ss.reads]; intro h; rw [h]; rfl) (by rw [Ss.args]; intro h; rw [h]; rfl))) h)
    · intro _ _ _ e; cases e
  | .cons (.switch tgt cs) ss, st, st', hs, hr, h => by
    rw [Ss.cut, Ss.exec, Ss.exec]
    · exact ss.cut_agree _ _ hs.2 (fun v hv => hr v (hv.imp (by simp +contextual [Ss.reads]) (by simp +contextual [Ss.args])))
        (S.cut_agree (.switch tgt cs) st st' hs.1 (fun v hv => hr v (hv.imp (by rw [Ss.reads]; intro h; rw [h]; rfl) (by rw [Ss.args]; intro h; rw [h]; rfl))) h)
    · intro _ _ _ e; cases e
  | .cons (.for_ iv a b s body) ss, st, st', hs, hr, h => by
    rw [Ss.cut, Ss.exec, Ss.exec]
    · exact ss.cut_agree _ _ hs.2 (fun v hv => hr v (hv.imp (by simp +contextual [Ss.reads]) (by simp +contextual [Ss.args])))
        (S.cut_agree (.for_ iv a b s body) st st' hs.1 (fun v hv => hr v (hv.imp (by rw [Ss.reads]; intro h; rw [h]; rfl) (by rw [Ss.args]; intro h; rw [h]; rfl))) h)
    · intro _ _ _ e; cases e
  | .cons (.call n as) ss, st, st', hs, hr, h => by
    rw [Ss.cut, Ss.exec, Ss.exec]
    · exact ss.cut_agree _ _ hs.2 (fun v hv => hr v (hv.imp (by simp +contextual [Ss.reads]) (by simp +contextual [Ss.args])))
        (S.cut_agree (.call n as) st st' hs.1 (fun v hv => hr v (hv.imp (by rw [Ss.reads]; intro h; rw [h]; rfl) (by rw [Ss.args]; intro h; rw [h]; rfl))) h)
    · intro _ _ _ e; cases e
theorem Cs.cut_agree : ∀ (cs : Cs) (w x : Nat) (k k' : St → St), (∀ st st', Agree R L st st' → Agree R L (k st) (k' st')) → ∀ (st st' : St), cs.safe R f →
    (∀ v, cs.reads v = true ∨ cs.args v = true → R v = false) → Agree R L st st' → Agree R L (cs.exec w x k st) ((cs.cut f).exec w x k' st')
  | .nil, w, x, k, k', hk, st, st', _, _, h => by
    rw [Cs.cut, Cs.exec, Cs.exec]
    exact hk st st' h
  | .cons none b cs, w, x, k, k', hk, st, st', hs, hr, h => by
    rw [Cs.cut, Cs.exec, Cs.exec]
    exact cs.cut_agree w x _ _ (fun st st' h => b.cut_agree st st' hs.1 (fun v hv => hr v (hv.imp (by simp +contextual [Cs.reads]) (by simp +contextual [Cs.args]))) h)
      st st' hs.2 (fun v hv => hr v (hv.imp (by simp +contextual [Cs.reads]) (by simp +contextual [Cs.args]))) h
  | .cons (some c) b cs, w, x, k, k', hk, st, st', hs, hr, h => by
    rw [Cs.cut, Cs.exec, Cs.exec]
    split
    · exact b.cut_agree st st' hs.1 (fun v hv => hr v (hv.imp (by simp +contextual [Cs.reads]) (by simp +contextual [Cs.args]))) h
    · exact cs.cut_agree w x k k' hk st st' hs.2 (fun v hv => hr v (hv.imp (by simp +contextual [Cs.reads]) (by simp +contextual [Cs.args]))) h
end

mutual
/-- A statement that only drives variables of `R` changes nothing else. -/
theorem S.only_val : ∀ (s : S) (R : VarId → Bool) (st : St), (∀ v, s.writes v = true → R v = true) → ∀ v, R v = false → (s.exec st).val v = st.val v
  | .assign nb ls r, R, st, hw, v, hv => by
    have hl : ∀ l ∈ ls, R l.v = true := fun l hl => hw l.v (by simp only [S.writes, hits, List.any_eq_true]; exact ⟨l, hl, beq_self_eq_true _⟩)
    exact ((assign_dropped (L := True) (Agree.refl st) (nb := nb) (r := r) hl).val v hv).symm
  | .ite c t e, R, st, hw, v, hv => by
    simp only [S.exec]
    split
    · exact t.only_val R st (fun v h => hw v (by simp [S.writes, h])) v hv
    · exact e.only_val R st (fun v h => hw v (by simp [S.writes, h])) v hv
  | .switch tgt cs, R, st, hw, v, hv => by
    simp only [S.exec]
    exact cs.only_val R _ _ id (fun _ _ _ => rfl) st (fun v h => hw v (by simp [S.writes, h])) v hv
  | .for_ iv a b s body, R, st, hw, v, hv => by
    simp only [S.exec, restore]
    split
    · rename_i e; rw [e]
    · rename_i hne
      have key : ∀ (l : List Int) (st : St), (l.foldl (fun st i => body.exec (setVar iv (pattern 32 i) st)) st).val v = st.val v := by
        intro l
        induction l with
        | nil => intro _; rfl
        | cons i l ih =>
          intro st
          rw [List.foldl_cons, ih]
          have := body.only_val R (setVar iv (pattern 32 i) st) (fun v h => hw v (by simp [S.writes, h])) v hv
          rw [this]
          simp [setVar, hne]
      exact key _ st
  | .call n as, R, st, _, v, _ => rfl
theorem Ss.only_val : ∀ (ss : Ss) (R : VarId → Bool) (st : St), (∀ v, ss.writes v = true → R v = true) → ∀ v, R v = false → (ss.exec st).val v = st.val v
  | .nil, _, _, _, _, _ => by rw [Ss.exec]
  | .cons s ss, R, st, hw, v, hv => by
    rw [Ss.exec, ss.only_val R _ (fun v h => hw v (by simp [Ss.writes, h])) v hv, s.only_val R _ (fun v h => hw v (by simp [Ss.writes, h])) v hv]
theorem Cs.only_val : ∀ (cs : Cs) (R : VarId → Bool) (w x : Nat) (k : St → St), (∀ st v, R v = false → (k st).val v = st.val v) → ∀ (st : St),
    (∀ v, cs.writes v = true → R v = true) → ∀ v, R v = false → (cs.exec w x k st).val v = st.val v
  | .nil, R, w, x, k, hk, st, _, v, hv => by rw [Cs.exec]; exact hk st v hv
  | .cons none b cs, R, w, x, k, hk, st, hw, v, hv => by
    rw [Cs.exec]
    exact cs.only_val R w x _ (fun st v hv => b.only_val R st (fun v h => hw v (by simp [Cs.writes, h])) v hv) st (fun v h => hw v (by simp [Cs.writes, h])) v hv
  | .cons (some c) b cs, R, w, x, k, hk, st, hw, v, hv => by
    rw [Cs.exec]
    split
    · exact b.only_val R st (fun v h => hw v (by simp [Cs.writes, h])) v hv
    · exact cs.only_val R w x k hk st (fun v h => hw v (by simp [Cs.writes, h])) v hv
end

mutual
theorem S.only_nba : ∀ (s : S) (R : VarId → Bool) (st : St), (∀ v, s.writes v = true → R v = true) →
    (s.exec st).nba.filter (fun p => !R p.1.v) = st.nba.filter fun p => !R p.1.v
  | .assign nb ls r, R, st, hw => by
    have hl : ∀ l ∈ ls, R l.v = true := fun l hl => hw l.v (by simp only [S.writes, hits, List.any_eq_true]; exact ⟨l, hl, beq_self_eq_true _⟩)
    exact (assign_dropped (L := True) (Agree.refl st) (nb := nb) (r := r) hl).nba.symm
  | .ite c t e, R, st, hw => by
    simp only [S.exec]
    split
    · exact t.only_nba R st (fun v h => hw v (by simp [S.writes, h]))
    · exact e.only_nba R st (fun v h => hw v (by simp [S.writes, h]))
  | .switch tgt cs, R, st, hw => by
    simp only [S.exec]
    exact cs.only_nba R _ _ id (fun _ => rfl) st (fun v h => hw v (by simp [S.writes, h]))
  | .for_ iv a b s body, R, st, hw => by
    simp only [S.exec, restore]
    have key : ∀ (l : List Int) (st : St), (l.foldl (fun st i => body.exec (setVar iv (pattern 32 i) st)) st).nba.filter (fun p => !R p.1.v) =
        st.nba.filter fun p => !R p.1.v := by
      intro l
      induction l with
      | nil => intro _; rfl
      | cons i l ih =>
        intro st
        rw [List.foldl_cons, ih, body.only_nba R _ (fun v h => hw v (by simp [S.writes, h]))]
        rfl
    exact key _ st
  | .call n as, R, st, _ => rfl
theorem Ss.only_nba : ∀ (ss : Ss) (R : VarId → Bool) (st : St), (∀ v, ss.writes v = true → R v = true) →
    (ss.exec st).nba.filter (fun p => !R p.1.v) = st.nba.filter fun p => !R p.1.v
  | .nil, _, _, _ => by rw [Ss.exec]
  | .cons s ss, R, st, hw => by
    rw [Ss.exec, ss.only_nba R _ (fun v h => hw v (by simp [Ss.writes, h])), s.only_nba R _ (fun v h => hw v (by simp [Ss.writes, h]))]
theorem Cs.only_nba : ∀ (cs : Cs) (R : VarId → Bool) (w x : Nat) (k : St → St),
    (∀ st, (k st).nba.filter (fun p => !R p.1.v) = st.nba.filter fun p => !R p.1.v) → ∀ (st : St),
    (∀ v, cs.writes v = true → R v = true) → (cs.exec w x k st).nba.filter (fun p => !R p.1.v) = st.nba.filter fun p => !R p.1.v
  | .nil, R, w, x, k, hk, st, _ => by rw [Cs.exec]; exact hk st
  | .cons none b cs, R, w, x, k, hk, st, hw => by
    rw [Cs.exec]
    exact cs.only_nba R w x _ (fun st => b.only_nba R st (fun v h => hw v (by simp [Cs.writes, h]))) st (fun v h => hw v (by simp [Cs.writes, h]))
  | .cons (some c) b cs, R, w, x, k, hk, st, hw => by
    rw [Cs.exec]
    split
    · exact b.only_nba R st (fun v h => hw v (by simp [Cs.writes, h]))
    · exact cs.only_nba R w x k hk st (fun v h => hw v (by simp [Cs.writes, h]))
end

/-- Two processes are interchangeable up to `R`: same events outside `R` and agreeing bodies, or the second is empty and the first has no
effect outside `R`. -/
def PSim (R : VarId → Bool) (L : Prop) (p p' : Proc) : Prop :=
  (p'.events = p.events ∧ (∀ e ∈ p.events, R e.2 = false) ∧ ∀ st st', Agree R L st st' → Agree R L (p.body.exec st) (p'.body.exec st')) ∨
  (p'.body = .nil ∧ ∀ st st', Agree R L st st' → Agree R L (p.body.exec st) st')

theorem runProc_sim {ps : List Proc} {g : Proc → Proc} (hg : ∀ p ∈ ps, PSim R L p (g p)) (i : Nat) {st st' : St} (h : Agree R L st st') :
    Agree R L (runProc ps i st) (runProc (ps.map g) i st') := by
  unfold runProc
  rw [List.getElem?_map]
  cases hi : ps[i]? with
  | none => exact h
  | some p =>
    simp only [Option.map_some]
    rcases hg p (List.mem_of_getElem? hi) with ⟨h1, _, h3⟩ | ⟨h1, h2⟩
    · rw [h1]
      split
      · exact h3 st st' h
      · exact h
    · rw [h1]
      have e : ∀ b : Bool, (if b = true then Ss.nil.exec st' else st') = st' := by intro b; cases b <;> simp [Ss.exec]
      rw [e]
      split
      · exact h2 st st' h
      · exact h

theorem fired_eq {old new old' new' : Store} {e : Bool × VarId} (h1 : old' e.2 = old e.2) (h2 : new' e.2 = new e.2) : fired old' new' e = fired old new e := by
  unfold fired
  rw [h1, h2]

theorem any_congr {α : Type} {l : List α} {f g : α → Bool} (h : ∀ a ∈ l, f a = g a) : l.any f = l.any g := by
  induction l with
  | nil => rfl
  | cons a l ih => rw [List.any_cons, List.any_cons, h a (List.mem_cons_self ..), ih fun a ha => h a (List.mem_cons_of_mem _ ha)]

theorem ticks_sim {old new old' new' : Store} (ho : ∀ v, R v = false → old' v = old v) (hn : ∀ v, R v = false → new' v = new v) {g : Proc → Proc} :
    ∀ (ps : List Proc), (∀ p ∈ ps, PSim R L p (g p)) → ∀ {st st' : St}, Agree R L st st' →
    Agree R L (ps.foldl (fun s p => if p.events.any (fired old new) then p.body.exec s else s) st)
      ((ps.map g).foldl (fun s p => if p.events.any (fired old' new') then p.body.exec s else s) st')
  | [], _, _, _, h => h
  | p :: ps, hg, st, st', h => by
    rw [List.map_cons, List.foldl_cons, List.foldl_cons]
    refine ticks_sim ho hn ps (fun p hp => hg p (List.mem_cons_of_mem _ hp)) ?_
    rcases hg p (List.mem_cons_self ..) with ⟨h1, h2, h3⟩ | ⟨h1, h2⟩
    · rw [h1, any_congr (fun e he => fired_eq (ho e.2 (h2 e he)) (hn e.2 (h2 e he)))]
      split
      · exact h3 st st' h
      · exact h
    · rw [h1]
      have e : ∀ b : Bool, (if b = true then Ss.nil.exec st' else st') = st' := by intro b; cases b <;> simp [Ss.exec]
      rw [e]
      split
      · exact h2 st st' h
      · exact h

theorem step_sim {ps : List Proc} {g : Proc → Proc} (hg : ∀ p ∈ ps, PSim R L p (g p)) (x : Step) {r r' : Run} (h : Agree R L r.st r'.st)
    (hl : ∀ v, R v = false → r'.last v = r.last v) :
    Agree R L (doStep ps r x).st (doStep (ps.map g) r' x).st ∧ ∀ v, R v = false → (doStep (ps.map g) r' x).last v = (doStep ps r x).last v := by
  cases x with
  | poke v x => exact ⟨h.setVar v x, hl⟩
  | run i => exact ⟨runProc_sim hg i h, hl⟩
  | tick =>
    have ht : Agree R L (tickProcs ps r.last r.st) (tickProcs (ps.map g) r'.last r'.st) := ticks_sim hl h.val ps hg h
    have hv := apply_agree ht.val ht.nba
    exact ⟨⟨hv, rfl, ht.log⟩, hv⟩

theorem runs_sim {ps : List Proc} {g : Proc → Proc} (hg : ∀ p ∈ ps, PSim R L p (g p)) (σ : Store) (sched : List Step) :
    Agree R L (runs ps σ sched).st (runs (ps.map g) σ sched).st := by
  have key : ∀ (sched : List Step) (r r' : Run), Agree R L r.st r'.st → (∀ v, R v = false → r'.last v = r.last v) →
      Agree R L (sched.foldl (doStep ps) r).st (sched.foldl (doStep (ps.map g)) r').st := by
    intro sched
    induction sched with
    | nil => exact fun _ _ h _ => h
    | cons x sched ih =>
      intro r r' h hl
      obtain ⟨h1, h2⟩ := step_sim hg x h hl
      exact ih _ _ h1 h2
  exact key sched _ _ (Agree.refl _) fun _ _ => rfl

end

/-! ### Proof: what erasing does to the text -/

section
variable {f : List LVal → Expr → Bool}

theorem Ss.cut_cons (s : S) (ss : Ss) :
    (∃ nb ls r, s = .assign nb ls r ∧ f ls r = true ∧ (Ss.cons s ss).cut f = ss.cut f) ∨
    ((∀ nb ls r, s = .assign nb ls r → f ls r = false) ∧ (Ss.cons s ss).cut f = .cons (s.cut f) (ss.cut f)) := by
  cases s with
  | assign nb ls r =>
    cases h : f ls r with
    | true => exact .inl ⟨nb, ls, r, rfl, h, by rw [Ss.cut, if_pos h]⟩
    | false =>
      refine .inr ⟨fun nb' ls' r' e => by cases e; exact h, ?_⟩
      rw [Ss.cut, if_neg (by rw [h]; exact Bool.false_ne_true), S.cut]
  | ite c t e => exact .inr ⟨(fun _ _ _ e => nomatch e), by rw [Ss.cut]; intro _ _ _ e; cases e⟩
  | switch c cs => exact .inr ⟨(fun _ _ _ e => nomatch e), by rw [Ss.cut]; intro _ _ _ e; cases e⟩
  | for_ iv a b s body => exact .inr ⟨(fun _ _ _ e => nomatch e), by rw [Ss.cut]; intro _ _ _ e; cases e⟩
  | call n as => exact .inr ⟨(fun _ _ _ e => nomatch e), by rw [Ss.cut]; intro _ _ _ e; cases e⟩

mutual
theorem S.cut_mono (v : VarId) : ∀ (s : S), ((s.cut f).reads v = true → s.reads v = true) ∧ ((s.cut f).writes v = true → s.writes v = true) ∧
    ((s.cut f).copies v = true → s.copies v = true) ∧ ((s.cut f).args v = true → s.args v = true) ∧ (s.single → (s.cut f).single)
  | .assign nb ls r => by rw [S.cut]; exact ⟨id, id, id, id, id⟩
  | .ite c t e => by
    obtain ⟨a1, a2, a3, a4, a5⟩ := t.cut_mono v
    obtain ⟨b1, b2, b3, b4, b5⟩ := e.cut_mono v
    rw [S.cut]
    simp only [S.reads, S.writes, S.copies, S.args, S.single, Bool.or_eq_true]
    exact ⟨Or.imp id (Or.imp a1 b1), Or.imp a2 b2, Or.imp a3 b3, Or.imp a4 b4, And.imp a5 b5⟩
  | .switch tgt cs => by
    obtain ⟨a1, a2, a3, a4, a5⟩ := cs.cut_mono v
    rw [S.cut]
    simp only [S.reads, S.writes, S.copies, S.args, S.single, Bool.or_eq_true]
    exact ⟨Or.imp id a1, a2, a3, a4, a5⟩
  | .for_ iv a b s body => by
    obtain ⟨a1, a2, a3, a4, a5⟩ := body.cut_mono v
    rw [S.cut]
    simp only [S.reads, S.writes, S.copies, S.args, S.single]
    exact ⟨a1, a2, a3, a4, a5⟩
  | .call n as => by rw [S.cut]; exact ⟨id, id, id, id, id⟩
theorem Ss.cut_mono (v : VarId) : ∀ (ss : Ss), ((ss.cut f).reads v = true → ss.reads v = true) ∧ ((ss.cut f).writes v = true → ss.writes v = true) ∧
    ((ss.cut f).copies v = true → ss.copies v = true) ∧ ((ss.cut f).args v = true → ss.args v = true) ∧ (ss.single → (ss.cut f).single)
  | .nil => by rw [Ss.cut]; exact ⟨id, id, id, id, id⟩
  | .cons s ss => by
    obtain ⟨a1, a2, a3, a4, a5⟩ := s.cut_mono v
    obtain ⟨b1, b2, b3, b4, b5⟩ := ss.cut_mono v
    rcases Ss.cut_cons (f := f) s ss with ⟨_, _, _, _, _, e⟩ | ⟨_, e⟩
    · rw [e]
      simp only [Ss.reads, Ss.writes, Ss.copies, Ss.args, Ss.single, Bool.or_eq_true]
      exact ⟨fun h => .inr (b1 h), fun h => .inr (b2 h), fun h => .inr (b3 h), fun h => .inr (b4 h), fun h => b5 h.2⟩
    · rw [e]
      simp only [Ss.reads, Ss.writes, Ss.copies, Ss.args, Ss.single, Bool.or_eq_true]
      exact ⟨Or.imp a1 b1, Or.imp a2 b2, Or.imp a3 b3, Or.imp a4 b4, And.imp a5 b5⟩
theorem Cs.cut_mono (v : VarId) : ∀ (cs : Cs), ((cs.cut f).reads v = true → cs.reads v = true) ∧ ((cs.cut f).writes v = true → cs.writes v = true) ∧
    ((cs.cut f).copies v = true → cs.copies v = true) ∧ ((cs.cut f).args v = true → cs.args v = true) ∧ (cs.single → (cs.cut f).single)
  | .nil => by rw [Cs.cut]; exact ⟨id, id, id, id, id⟩
  | .cons l b cs => by
    obtain ⟨a1, a2, a3, a4, a5⟩ := b.cut_mono v
    obtain ⟨b1, b2, b3, b4, b5⟩ := cs.cut_mono v
    rw [Cs.cut]
    simp only [Cs.reads, Cs.writes, Cs.copies, Cs.args, Cs.single, Bool.or_eq_true]
    exact ⟨Or.imp a1 b1, Or.imp a2 b2, Or.imp a3 b3, Or.imp a4 b4, And.imp a5 b5⟩
end

mutual
/-- Drivers of other variables stay. -/
theorem S.cut_writes {R : VarId → Bool} {w : VarId} (hw : R w = false) : ∀ (s : S), s.safe R f → s.writes w = true → (s.cut f).writes w = true
  | .assign nb ls r, _, h => by rw [S.cut]; exact h
  | .ite c t e, hs, h => by
    rw [S.cut]
    simp only [S.writes, Bool.or_eq_true] at h ⊢
    exact h.imp (t.cut_writes hw hs.1) (e.cut_writes hw hs.2)
  | .switch tgt cs, hs, h => by
    rw [S.cut]
    simp only [S.writes] at h ⊢
    exact cs.cut_writes hw hs h
  | .for_ iv a b s body, hs, h => by
    rw [S.cut]
    simp only [S.writes] at h ⊢
    exact body.cut_writes hw hs h
  | .call n as, _, h => by cases h
theorem Ss.cut_writes {R : VarId → Bool} {w : VarId} (hw : R w = false) : ∀ (ss : Ss), ss.safe R f → ss.writes w = true → (ss.cut f).writes w = true
  | .nil, _, h => by cases h
  | .cons s ss, hs, h => by
    simp only [Ss.writes, Bool.or_eq_true] at h
    rcases Ss.cut_cons (f := f) s ss with ⟨nb, ls, r, e1, e2, e⟩ | ⟨_, e⟩
    · rw [e]
      rcases h with h | h
      · rw [e1] at h
        have h1 := hs.1
        rw [e1] at h1
        simp only [S.writes, hits, List.any_eq_true, beq_iff_eq] at h
        obtain ⟨l, hl, e3⟩ := h
        have := h1 e2 l hl
        rw [e3, hw] at this
        cases this
      · exact ss.cut_writes hw hs.2 h
    · rw [e]
      simp only [Ss.writes, Bool.or_eq_true]
      exact h.imp (s.cut_writes hw hs.1) (ss.cut_writes hw hs.2)
theorem Cs.cut_writes {R : VarId → Bool} {w : VarId} (hw : R w = false) : ∀ (cs : Cs), cs.safe R f → cs.writes w = true → (cs.cut f).writes w = true
  | .nil, _, h => by cases h
  | .cons l b cs, hs, h => by
    rw [Cs.cut]
    simp only [Cs.writes, Bool.or_eq_true] at h ⊢
    exact h.imp (b.cut_writes hw hs.1) (cs.cut_writes hw hs.2)
end

mutual
/-- Erasing nothing. -/
theorem S.cut_none : ∀ (s : S), s.cut (fun _ _ => false) = s
  | .assign nb ls r => by rw [S.cut]
  | .ite c t e => by rw [S.cut, t.cut_none, e.cut_none]
  | .switch tgt cs => by rw [S.cut, cs.cut_none]
  | .for_ iv a b s body => by rw [S.cut, body.cut_none]
  | .call n as => by rw [S.cut]
theorem Ss.cut_none : ∀ (ss : Ss), ss.cut (fun _ _ => false) = ss
  | .nil => by rw [Ss.cut]
  | .cons s ss => by
    rcases Ss.cut_cons (f := fun _ _ => false) s ss with ⟨_, _, _, _, e2, _⟩ | ⟨_, e⟩
    · cases e2
    · rw [e, s.cut_none, ss.cut_none]
theorem Cs.cut_none : ∀ (cs : Cs), cs.cut (fun _ _ => false) = cs
  | .nil => by rw [Cs.cut]
  | .cons l b cs => by rw [Cs.cut, b.cut_none, cs.cut_none]
end

mutual
theorem S.safe_none {R : VarId → Bool} : ∀ (s : S), s.safe R (fun _ _ => false)
  | .assign nb ls r => by intro h; cases h
  | .ite c t e => ⟨t.safe_none, e.safe_none⟩
  | .switch tgt cs => cs.safe_none
  | .for_ iv a b s body => body.safe_none
  | .call n as => trivial
theorem Ss.safe_none {R : VarId → Bool} : ∀ (ss : Ss), ss.safe R (fun _ _ => false)
  | .nil => trivial
  | .cons s ss => ⟨s.safe_none, ss.safe_none⟩
theorem Cs.safe_none {R : VarId → Bool} : ∀ (cs : Cs), cs.safe R (fun _ _ => false)
  | .nil => trivial
  | .cons l b cs => ⟨b.safe_none, cs.safe_none⟩
end

mutual
/-- With one target per assignment and no assignment reading `v`, removing `v` only erases its drivers. -/
theorem S.safe_goes {v : VarId} : ∀ (s : S), s.single → s.copies v = false → s.safe (· == v) (goes v)
  | .assign nb ls r, hs, hc => by
    intro h l hl
    simp only [S.copies] at hc
    simp only [goes, hc, Bool.or_false, hits, List.any_eq_true] at h
    obtain ⟨l', hl', e⟩ := h
    obtain ⟨a, ha⟩ := List.length_eq_one_iff.1 hs
    rw [ha, List.mem_singleton] at hl hl'
    rw [hl, ← hl']
    exact e
  | .ite c t e, hs, hc => by
    simp only [S.copies, Bool.or_eq_false_iff] at hc
    exact ⟨t.safe_goes hs.1 hc.1, e.safe_goes hs.2 hc.2⟩
  | .switch tgt cs, hs, hc => cs.safe_goes hs hc
  | .for_ iv a b s body, hs, hc => body.safe_goes hs hc
  | .call n as, _, _ => trivial
theorem Ss.safe_goes {v : VarId} : ∀ (ss : Ss), ss.single → ss.copies v = false → ss.safe (· == v) (goes v)
  | .nil, _, _ => trivial
  | .cons s ss, hs, hc => by
    simp only [Ss.copies, Bool.or_eq_false_iff] at hc
    exact ⟨s.safe_goes hs.1 hc.1, ss.safe_goes hs.2 hc.2⟩
theorem Cs.safe_goes {v : VarId} : ∀ (cs : Cs), cs.single → cs.copies v = false → cs.safe (· == v) (goes v)
  | .nil, _, _ => trivial
  | .cons l b cs, hs, hc => by
    simp only [Cs.copies, Bool.or_eq_false_iff] at hc
    exact ⟨b.safe_goes hs.1 hc.1, cs.safe_goes hs.2 hc.2⟩
end

mutual
/-- After removing `v`, nothing drives it and no assignment reads it. -/
theorem S.goes_clear {v : VarId} : ∀ (s : S), (∀ nb ls r, s = .assign nb ls r → goes v ls r = false) → (s.cut (goes v)).writes v = false ∧ (s.cut (goes v)).copies v = false
  | .assign nb ls r, h => by
    rw [S.cut]
    have := h nb ls r rfl
    simp only [goes, Bool.or_eq_false_iff] at this
    exact this
  | .ite c t e, _ => by
    rw [S.cut]
    simp only [S.writes, S.copies, Bool.or_eq_false_iff]
    exact ⟨⟨t.goes_clear.1, e.goes_clear.1⟩, t.goes_clear.2, e.goes_clear.2⟩
  | .switch tgt cs, _ => by
    rw [S.cut]
    simp only [S.writes, S.copies]
    exact cs.goes_clear
  | .for_ iv a b s body, _ => by
    rw [S.cut]
    simp only [S.writes, S.copies]
    exact body.goes_clear
  | .call n as, _ => by rw [S.cut]; exact ⟨rfl, rfl⟩
theorem Ss.goes_clear {v : VarId} : ∀ (ss : Ss), (ss.cut (goes v)).writes v = false ∧ (ss.cut (goes v)).copies v = false
  | .nil => by rw [Ss.cut]; exact ⟨rfl, rfl⟩
  | .cons s ss => by
    rcases Ss.cut_cons (f := goes v) s ss with ⟨_, _, _, _, _, e⟩ | ⟨h, e⟩
    · rw [e]; exact ss.goes_clear
    · rw [e]
      simp only [Ss.writes, Ss.copies, Bool.or_eq_false_iff]
      exact ⟨⟨(s.goes_clear h).1, ss.goes_clear.1⟩, (s.goes_clear h).2, ss.goes_clear.2⟩
theorem Cs.goes_clear {v : VarId} : ∀ (cs : Cs), (cs.cut (goes v)).writes v = false ∧ (cs.cut (goes v)).copies v = false
  | .nil => by rw [Cs.cut]; exact ⟨rfl, rfl⟩
  | .cons l b cs => by
    rw [Cs.cut]
    simp only [Cs.writes, Cs.copies, Bool.or_eq_false_iff]
    exact ⟨⟨b.goes_clear.1, cs.goes_clear.1⟩, b.goes_clear.2, cs.goes_clear.2⟩
end

mutual
theorem S.goes_id {v : VarId} : ∀ (s : S), s.writes v = false → s.copies v = false → s.cut (goes v) = s
  | .assign nb ls r, _, _ => by rw [S.cut]
  | .ite c t e, h1, h2 => by
    simp only [S.writes, S.copies, Bool.or_eq_false_iff] at h1 h2
    rw [S.cut, t.goes_id h1.1 h2.1, e.goes_id h1.2 h2.2]
  | .switch tgt cs, h1, h2 => by rw [S.cut, cs.goes_id h1 h2]
  | .for_ iv a b s body, h1, h2 => by rw [S.cut, body.goes_id h1 h2]
  | .call n as, _, _ => by rw [S.cut]
theorem Ss.goes_id {v : VarId} : ∀ (ss : Ss), ss.writes v = false → ss.copies v = false → ss.cut (goes v) = ss
  | .nil, _, _ => by rw [Ss.cut]
  | .cons s ss, h1, h2 => by
    simp only [Ss.writes, Ss.copies, Bool.or_eq_false_iff] at h1 h2
    rcases Ss.cut_cons (f := goes v) s ss with ⟨nb, ls, r, e1, e2, _⟩ | ⟨h, e⟩
    · rw [e1] at h1 h2
      simp only [S.writes, S.copies] at h1 h2
      simp only [goes, h1.1, h2.1, Bool.or_false] at e2
      cases e2
    · rw [e, s.goes_id h1.1 h2.1, ss.goes_id h1.2 h2.2]
theorem Cs.goes_id {v : VarId} : ∀ (cs : Cs), cs.writes v = false → cs.copies v = false → cs.cut (goes v) = cs
  | .nil, _, _ => by rw [Cs.cut]
  | .cons l b cs, h1, h2 => by
    simp only [Cs.writes, Cs.copies, Bool.or_eq_false_iff] at h1 h2
    rw [Cs.cut, b.goes_id h1.1 h2.1, cs.goes_id h1.2 h2.2]
end

mutual
theorem S.copies_reads {v : VarId} : ∀ (s : S), s.copies v = true → s.reads v = true
  | .assign _ _ _, h => h
  | .ite c t e, h => by
    simp only [S.copies, S.reads, Bool.or_eq_true] at h ⊢
    exact .inr (h.imp t.copies_reads e.copies_reads)
  | .switch tgt cs, h => by
    simp only [S.copies, S.reads, Bool.or_eq_true] at h ⊢
    exact .inr (cs.copies_reads h)
  | .for_ iv a b s body, h => body.copies_reads h
  | .call _ _, h => by cases h
theorem Ss.copies_reads {v : VarId} : ∀ (ss : Ss), ss.copies v = true → ss.reads v = true
  | .nil, h => by cases h
  | .cons s ss, h => by
    simp only [Ss.copies, Ss.reads, Bool.or_eq_true] at h ⊢
    exact h.imp s.copies_reads ss.copies_reads
theorem Cs.copies_reads {v : VarId} : ∀ (cs : Cs), cs.copies v = true → cs.reads v = true
  | .nil, h => by cases h
  | .cons l b cs, h => by
    simp only [Cs.copies, Cs.reads, Bool.or_eq_true] at h ⊢
    exact h.imp b.copies_reads cs.copies_reads
end

end

/-! ### Proof: the pass -/

/-- Processes only lose statements. -/
def Shrink (ps ps' : List Proc) : Prop := ∃ f : Proc → Proc, ps' = ps.map f ∧ ∀ p, (f p).owner = p.owner ∧ (∀ e ∈ (f p).events, e ∈ p.events) ∧
  ∀ v, ((f p).body.reads v = true → p.body.reads v = true) ∧ ((f p).body.writes v = true → p.body.writes v = true) ∧
    ((f p).body.args v = true → p.body.args v = true)

theorem Shrink.refl (ps : List Proc) : Shrink ps ps := ⟨id, (List.map_id _).symm, fun _ => ⟨rfl, fun _ h => h, fun _ => ⟨id, id, id⟩⟩⟩

theorem Shrink.trans {a b c : List Proc} (h : Shrink a b) (k : Shrink b c) : Shrink a c := by
  obtain ⟨f, rfl, hf⟩ := h
  obtain ⟨g, rfl, hg⟩ := k
  refine ⟨g ∘ f, by rw [List.map_map], fun p => ?_⟩
  obtain ⟨f1, f2, f3⟩ := hf p
  obtain ⟨g1, g2, g3⟩ := hg (f p)
  exact ⟨g1.trans f1, fun e he => f2 e (g2 e he), fun v => ⟨fun h => (f3 v).1 ((g3 v).1 h), fun h => (f3 v).2.1 ((g3 v).2.1 h), fun h => (f3 v).2.2 ((g3 v).2.2 h)⟩⟩

structure Inv (gs : List Gen) (d : D) : Prop where
  plain : Plain gs d.procs
  clear : ∀ v ∈ d.gone, ∀ p ∈ d.procs, p.body.writes v = false

structure Progress (d d' : D) : Prop where
  gone : ∀ v ∈ d.gone, v ∈ d'.gone
  same : ∀ σ sched, (∀ v, v ∉ d'.gone → (runs d'.procs σ sched).st.val v = (runs d.procs σ sched).st.val v) ∧
    (runs d'.procs σ sched).st.log = (runs d.procs σ sched).st.log
  shrink : Shrink d.procs d'.procs

theorem Progress.refl (d : D) : Progress d d := ⟨fun _ h => h, fun _ _ => ⟨fun _ _ => rfl, rfl⟩, Shrink.refl _⟩

theorem Progress.trans {a b c : D} (h : Progress a b) (k : Progress b c) : Progress a c :=
  ⟨fun v hv => k.gone v (h.gone v hv), fun σ sched => ⟨fun v hv => ((k.same σ sched).1 v hv).trans ((h.same σ sched).1 v fun hh => hv (k.gone v hh)),
    (k.same σ sched).2.trans (h.same σ sched).2⟩, h.shrink.trans k.shrink⟩

theorem remove_shrink (d : D) (v : VarId) : Shrink d.procs (d.remove v).procs :=
  ⟨_, rfl, fun p => ⟨rfl, fun _ h => h, fun w => ⟨(p.body.cut_mono w).1, (p.body.cut_mono w).2.1, (p.body.cut_mono w).2.2.2.1⟩⟩⟩

/-- Removing a variable that no assignment reads keeps the conditions. -/
theorem remove_inv {gs : List Gen} {d : D} (I : Inv gs d) {v : VarId} (hc : ∀ p ∈ d.procs, p.body.copies v = false) : Inv gs (d.remove v) := by
  have hmem : ∀ p ∈ (d.remove v).procs, ∃ q ∈ d.procs, p = { q with body := q.body.cut (goes v) } := by
    intro p hp
    obtain ⟨q, hq, e⟩ := List.mem_map.1 hp
    exact ⟨q, hq, e.symm⟩
  refine ⟨⟨?_, ?_, ?_⟩, ?_⟩
  · intro p hp
    obtain ⟨q, hq, rfl⟩ := hmem p hp
    exact (q.body.cut_mono 0).2.2.2.2 (I.plain.single q hq)
  · rintro u hu ⟨p, hp, h⟩
    obtain ⟨q, hq, rfl⟩ := hmem p hp
    exact I.plain.seen u hu ⟨q, hq, h.imp id (q.body.cut_mono u).2.2.2.1⟩
  · intro g hg ht u hu
    rcases Decidable.em (u = v) with rfl | hne
    · right
      intro p hp
      obtain ⟨q, hq, rfl⟩ := hmem p hp
      exact q.body.goes_clear.2
    · rcases I.plain.driven g hg ht u hu with ⟨q, hq, h⟩ | h
      · left
        refine ⟨{ q with body := q.body.cut (goes v) }, List.mem_map.2 ⟨q, hq, rfl⟩, ?_⟩
        exact q.body.cut_writes (R := (· == v)) (beq_eq_false_iff_ne.2 hne) (q.body.safe_goes (I.plain.single q hq) (hc q hq)) h
      · right
        intro p hp
        obtain ⟨q, hq, rfl⟩ := hmem p hp
        cases hh : (q.body.cut (goes v)).copies u with
        | false => rfl
        | true =>
          have := (q.body.cut_mono u).2.2.1 hh
          rw [h q hq] at this
          cases this
  · intro u hu p hp
    obtain ⟨q, hq, rfl⟩ := hmem p hp
    rcases List.mem_cons.1 hu with rfl | hu
    · exact q.body.goes_clear.1
    · cases hh : (q.body.cut (goes v)).writes u with
      | false => rfl
      | true =>
        have := (q.body.cut_mono u).2.1 hh
        rw [I.clear u hu q hq] at this
        cases this

theorem reads_false {d : D} {v : VarId} (h : d.reads v = false) : ∀ p ∈ d.procs, p.body.reads v = false := by
  intro p hp
  cases hh : p.body.reads v with
  | false => rfl
  | true =>
    have : d.reads v = true := List.any_eq_true.2 ⟨p, hp, hh⟩
    rw [h] at this
    cases this

theorem writes_false {d : D} {v : VarId} (h : d.writes v = false) : ∀ p ∈ d.procs, p.body.writes v = false := by
  intro p hp
  cases hh : p.body.writes v with
  | false => rfl
  | true =>
    have : d.writes v = true := List.any_eq_true.2 ⟨p, hp, hh⟩
    rw [h] at this
    cases this

/-- Removing a variable nobody reads. -/
theorem remove_unread {gs : List Gen} {d : D} (I : Inv gs d) {v : VarId} (hv : Candidate gs v) (hr : ∀ p ∈ d.procs, p.body.reads v = false) :
    Inv gs (d.remove v) ∧ Progress d (d.remove v) := by
  have hc : ∀ p ∈ d.procs, p.body.copies v = false := by
    intro p hp
    cases hh : p.body.copies v with
    | false => rfl
    | true =>
      have := p.body.copies_reads hh
      rw [hr p hp] at this
      cases this
  refine ⟨remove_inv I hc, fun w hw => List.mem_cons_of_mem _ hw, fun σ sched => ?_, remove_shrink d v⟩
  have hsim : ∀ p ∈ d.procs, PSim (· == v) True p { p with body := p.body.cut (goes v) } := by
    intro p hp
    have hnh := I.plain.seen v hv
    refine .inl ⟨rfl, fun e he => ?_, fun st st' h => p.body.cut_agree st st' (p.body.safe_goes (I.plain.single p hp) (hc p hp)) (fun u hu => ?_) h⟩
    · apply beq_eq_false_iff_ne.2
      intro e'
      exact hnh ⟨p, hp, .inl ⟨e.1, e' ▸ he⟩⟩
    · apply beq_eq_false_iff_ne.2
      rintro rfl
      rcases hu with hu | hu
      · rw [hr p hp] at hu; cases hu
      · exact hnh ⟨p, hp, .inr hu⟩
  have := runs_sim hsim σ sched
  refine ⟨fun w hw => this.val w (beq_eq_false_iff_ne.2 fun e => hw (e ▸ List.mem_cons_self ..)), this.log trivial⟩

/-- Removing a variable that nothing drives and no assignment reads changes nothing. -/
theorem remove_idle {gs : List Gen} {d : D} (I : Inv gs d) {v : VarId} (hw : ∀ p ∈ d.procs, p.body.writes v = false)
    (hc : ∀ p ∈ d.procs, p.body.copies v = false) : Inv gs (d.remove v) ∧ Progress d (d.remove v) := by
  have e : (d.remove v).procs = d.procs := by
    show d.procs.map _ = _
    rw [List.map_congr_left (g := id) (fun p hp => by show { p with body := p.body.cut (goes v) } = p; rw [p.body.goes_id (hw p hp) (hc p hp)]), List.map_id]
  exact ⟨remove_inv I hc, fun w hw => List.mem_cons_of_mem _ hw, fun σ sched => by rw [e]; exact ⟨fun _ _ => rfl, rfl⟩, remove_shrink d v⟩

theorem varLoop_ok {gs : List Gen} : ∀ (n : Nat) (vs : List VarId) (d : D), (∀ v ∈ vs, Candidate gs v) → Inv gs d →
    Inv gs (varLoop n vs d) ∧ Progress d (varLoop n vs d)
  | 0, _, d, _, I => ⟨I, Progress.refl d⟩
  | n + 1, vs, d, hv, I => by
    unfold varLoop
    split
    · rename_i v hf
      have hs := List.find?_some hf
      have hm := List.mem_of_find?_eq_some hf
      simp only [Bool.not_eq_true', D.sink, Bool.or_eq_false_iff] at hs
      obtain ⟨I', P⟩ := remove_unread I (hv v hm) (reads_false hs.1)
      obtain ⟨I'', P'⟩ := varLoop_ok n (vs.erase v) (d.remove v) (fun u hu => hv u (List.mem_of_mem_erase hu)) I'
      exact ⟨I'', P.trans P'⟩
    · exact ⟨I, Progress.refl d⟩

theorem Progress.reads_mono {d d' : D} (P : Progress d d') {v : VarId} (h : ∀ p ∈ d.procs, p.body.reads v = false) : ∀ p ∈ d'.procs, p.body.reads v = false := by
  obtain ⟨f, e, hf⟩ := P.shrink
  intro p hp
  rw [e] at hp
  obtain ⟨q, hq, rfl⟩ := List.mem_map.1 hp
  cases hh : (f q).body.reads v with
  | false => rfl
  | true =>
    have := ((hf q).2.2 v).1 hh
    rw [h q hq] at this
    cases this

theorem Progress.writes_mono {d d' : D} (P : Progress d d') {v : VarId} (h : ∀ p ∈ d.procs, p.body.writes v = false) : ∀ p ∈ d'.procs, p.body.writes v = false := by
  obtain ⟨f, e, hf⟩ := P.shrink
  intro p hp
  rw [e] at hp
  obtain ⟨q, hq, rfl⟩ := List.mem_map.1 hp
  cases hh : (f q).body.writes v with
  | false => rfl
  | true =>
    have := ((hf q).2.2 v).2.1 hh
    rw [h q hq] at this
    cases this

theorem clear_ok {gs : List Gen} {g : Gen} (hg : g ∈ gs) (ht : g.top = false) : ∀ (ps : List (VarId × Dir)) (d : D), (∀ p ∈ ps, p ∈ g.ports) →
    (∀ p ∈ ps, (∀ q ∈ d.procs, q.body.reads p.1 = false) ∨ (p.2 = .out ∧ ∀ q ∈ d.procs, q.body.writes p.1 = false)) → Inv gs d →
    Inv gs (ps.foldl (fun d p => d.remove p.1) d) ∧ Progress d (ps.foldl (fun d p => d.remove p.1) d)
  | [], d, _, _, I => ⟨I, Progress.refl d⟩
  | p :: ps, d, hp, h, I => by
    rw [List.foldl_cons]
    have key : Inv gs (d.remove p.1) ∧ Progress d (d.remove p.1) := by
      rcases h p (List.mem_cons_self ..) with h1 | ⟨h1, h2⟩
      · exact remove_unread I ⟨g, hg, .inr ⟨ht, p.2, hp p (List.mem_cons_self ..)⟩⟩ h1
      · refine remove_idle I h2 ?_
        obtain ⟨v, dir⟩ := p
        simp only at h1 h2 ⊢
        subst h1
        rcases I.plain.driven g hg ht v (hp _ (List.mem_cons_self ..)) with ⟨q, hq, hw⟩ | hc
        · rw [h2 q hq] at hw; cases hw
        · exact hc
    obtain ⟨I', P⟩ := key
    obtain ⟨I'', P'⟩ := clear_ok hg ht ps (d.remove p.1) (fun q hq => hp q (List.mem_cons_of_mem _ hq))
      (fun q hq => (h q (List.mem_cons_of_mem _ hq)).imp P.reads_mono (fun hh => ⟨hh.1, P.writes_mono hh.2⟩)) I'
    exact ⟨I'', P.trans P'⟩

theorem visitGen_ok {gs : List Gen} {g : Gen} (hg : g ∈ gs) {d : D} (I : Inv gs d) : Inv gs (visitGen d g) ∧ Progress d (visitGen d g) := by
  unfold visitGen
  obtain ⟨I', P⟩ := varLoop_ok g.vars.length g.vars d (fun v hv => ⟨g, hg, .inl hv⟩) I
  generalize varLoop g.vars.length g.vars d = d1 at *
  unfold clearPorts
  cases ht : g.top with
  | true => exact ⟨I', P⟩
  | false =>
    rw [if_neg Bool.false_ne_true]
    obtain ⟨I'', P'⟩ := clear_ok hg ht (g.ports.filter (useless d1)) d1 (fun p hp => (List.mem_filter.1 hp).1) (fun p hp => by
      have h := (List.mem_filter.1 hp).2
      unfold useless at h
      split at h
      · simp only [Bool.not_eq_true', D.sink, Bool.or_eq_false_iff] at h
        exact .inl (reads_false h.1)
      · rename_i e
        simp only [Bool.not_eq_true'] at h
        exact .inr ⟨e, writes_false h⟩
      · cases h) I'
    exact ⟨I'', P.trans P'⟩

theorem deadVars_ok {gs : List Gen} : ∀ (hs : List Gen), (∀ g ∈ hs, g ∈ gs) → ∀ (d : D), Inv gs d →
    Inv gs (hs.foldl visitGen d) ∧ Progress d (hs.foldl visitGen d)
  | [], _, d, I => ⟨I, Progress.refl d⟩
  | g :: hs, h, d, I => by
    rw [List.foldl_cons]
    obtain ⟨I', P⟩ := visitGen_ok (h g (List.mem_cons_self ..)) I
    obtain ⟨I'', P'⟩ := deadVars_ok hs (fun g hg => h g (List.mem_cons_of_mem _ hg)) _ I'
    exact ⟨I'', P.trans P'⟩

/-! ### Property theorems -/

/-- C22, variables and ports: whatever the schedule, every variable that is left has the value it would have had, and every call is made
with the same arguments. -/
theorem dead_vars_partial {gs : List Gen} {ps : List Proc} (h : Plain gs ps) (σ : Store) (sched : List Step) :
    (∀ v, v ∉ (deadVars gs ⟨ps, [], []⟩).gone → (runs (deadVars gs ⟨ps, [], []⟩).procs σ sched).st.val v = (runs ps σ sched).st.val v) ∧
    (runs (deadVars gs ⟨ps, [], []⟩).procs σ sched).st.log = (runs ps σ sched).st.log :=
  (deadVars_ok gs (fun _ h => h) ⟨ps, [], []⟩ ⟨h, fun _ hv => nomatch hv⟩).2.same σ sched

theorem Scoped.mono {inside : Nat → Nat → Bool} {gs : List Gen} {ps ps' : List Proc} (h : Scoped inside gs ps) (k : Shrink ps ps') : Scoped inside gs ps' := by
  obtain ⟨f, rfl, hf⟩ := k
  intro g hg ht p hp hip q hq hiq v hw hr
  obtain ⟨p0, hp0, rfl⟩ := List.mem_map.1 hp
  obtain ⟨q0, hq0, rfl⟩ := List.mem_map.1 hq
  obtain ⟨p1, p2, p3⟩ := hf p0
  obtain ⟨q1, q2, q3⟩ := hf q0
  refine h g hg ht p0 hp0 (p1 ▸ hip) q0 hq0 (q1 ▸ hiq) v ((p3 v).2.1 hw) ?_
  rcases hr with hr | hr | ⟨b, hr⟩
  · exact .inl ((q3 v).1 hr)
  · exact .inr (.inl ((q3 v).2.2 hr))
  · exact .inr (.inr ⟨b, q2 _ hr⟩)

/-- Driven inside an instance that the pass removes. -/
def Buried (inside : Nat → Nat → Bool) (gs : List Gen) (ps : List Proc) (gone : List VarId) (v : VarId) : Prop :=
  ∃ g ∈ gs, g.top = false ∧ (∀ p ∈ g.ports, p.1 ∈ gone) ∧ ∃ p ∈ ps, inside g.id p.owner = true ∧ p.body.writes v = true

theorem dropInstance_ok {inside : Nat → Nat → Bool} {gs : List Gen} {g : Gen} (hg : g ∈ gs) {d : D} (hc : ∀ v ∈ d.gone, ∀ p ∈ d.procs, p.body.writes v = false)
    (hs : Scoped inside gs d.procs) : (dropInstance inside g d).gone = d.gone ∧ Shrink d.procs (dropInstance inside g d).procs ∧
    ∀ σ sched v, ¬ Buried inside gs d.procs d.gone v → (runs (dropInstance inside g d).procs σ sched).st.val v = (runs d.procs σ sched).st.val v := by
  unfold dropInstance
  split
  · rename_i hcond
    simp only [Bool.and_eq_true, Bool.not_eq_true', portless, List.all_eq_true, List.contains_iff_mem] at hcond
    obtain ⟨ht, hports⟩ := hcond
    refine ⟨rfl, ⟨_, rfl, fun p => ?_⟩, fun σ sched v hv => ?_⟩
    · split
      · exact ⟨rfl, (fun _ h => nomatch h), fun v => ⟨(fun h => nomatch h), (fun h => nomatch h), (fun h => nomatch h)⟩⟩
      · exact ⟨rfl, fun _ h => h, fun v => ⟨id, id, id⟩⟩
    · let R : VarId → Bool := fun v => d.procs.any fun p => inside g.id p.owner && p.body.writes v
      have hR : ∀ u, R u = true → ∃ p ∈ d.procs, inside g.id p.owner = true ∧ p.body.writes u = true := by
        intro u hu
        obtain ⟨p, hp, h⟩ := List.any_eq_true.1 hu
        rw [Bool.and_eq_true] at h
        exact ⟨p, hp, h⟩
      have hsim : ∀ p ∈ d.procs, PSim R False p (if inside g.id p.owner = true then ⟨p.owner, [], .nil⟩ else p) := by
        intro p hp
        cases hi : inside g.id p.owner with
        | true =>
          rw [if_pos rfl]
          refine .inr ⟨rfl, fun st st' h => ?_⟩
          have hw : ∀ u, p.body.writes u = true → R u = true := fun u hu => List.any_eq_true.2 ⟨p, hp, by rw [hi, hu]; rfl⟩
          exact ⟨fun u hu => (h.val u hu).trans (p.body.only_val R st hw u hu).symm, h.nba.trans (p.body.only_nba R st hw).symm, fun hh => hh.elim⟩
        | false =>
          rw [if_neg Bool.false_ne_true]
          have hout : ∀ u, (p.body.reads u = true ∨ p.body.args u = true ∨ ∃ b, (b, u) ∈ p.events) → R u = false := by
            intro u hu
            cases hh : R u with
            | false => rfl
            | true =>
              obtain ⟨q, hq, hq1, hq2⟩ := hR u hh
              obtain ⟨dir, hd⟩ := hs g hg ht q hq hq1 p hp hi u hq2 hu
              have := hc u (hports _ hd) q hq
              rw [hq2] at this
              cases this
          refine .inl ⟨rfl, fun e he => hout e.2 (.inr (.inr ⟨e.1, he⟩)), fun st st' h => ?_⟩
          have := p.body.cut_agree (R := R) (L := False) (f := fun _ _ => false) st st' p.body.safe_none
            (fun u hu => hout u (hu.elim .inl (fun h => .inr (.inl h)))) h
          rw [p.body.cut_none] at this
          exact this
      refine (runs_sim hsim σ sched).val v ?_
      cases hh : R v with
      | false => rfl
      | true => exact absurd ⟨g, hg, ht, hports, hR v hh⟩ hv
  · exact ⟨rfl, Shrink.refl _, fun _ _ _ _ => rfl⟩

theorem Buried.mono {inside : Nat → Nat → Bool} {gs : List Gen} {ps ps' : List Proc} {gone : List VarId} {v : VarId} (h : Buried inside gs ps' gone v)
    (k : Shrink ps ps') : Buried inside gs ps gone v := by
  obtain ⟨g, hg, ht, h1, p, hp, h2, h3⟩ := h
  obtain ⟨f, rfl, hf⟩ := k
  obtain ⟨q, hq, rfl⟩ := List.mem_map.1 hp
  exact ⟨g, hg, ht, h1, q, hq, (hf q).1 ▸ h2, ((hf q).2.2 v).2.1 h3⟩

theorem dropInstances_ok {inside : Nat → Nat → Bool} {gs : List Gen} : ∀ (hs : List Gen), (∀ g ∈ hs, g ∈ gs) → ∀ (d : D),
    (∀ v ∈ d.gone, ∀ p ∈ d.procs, p.body.writes v = false) → Scoped inside gs d.procs →
    (dropInstances inside hs d).gone = d.gone ∧
    ∀ σ sched v, ¬ Buried inside gs d.procs d.gone v → (runs (dropInstances inside hs d).procs σ sched).st.val v = (runs d.procs σ sched).st.val v
  | [], _, _, _, _ => ⟨rfl, fun _ _ _ _ => rfl⟩
  | g :: hs, hsub, d, hc, hscope => by
    show (dropInstances inside hs (dropInstance inside g d)).gone = _ ∧ ∀ σ sched v, _ →
      (runs (dropInstances inside hs (dropInstance inside g d)).procs σ sched).st.val v = _
    obtain ⟨h1, h2, h3⟩ := dropInstance_ok (hsub g (List.mem_cons_self ..)) hc hscope
    have hc' : ∀ v ∈ (dropInstance inside g d).gone, ∀ p ∈ (dropInstance inside g d).procs, p.body.writes v = false := by
      rw [h1]
      obtain ⟨f, e, hf⟩ := h2
      rw [e]
      intro v hv p hp
      obtain ⟨q, hq, rfl⟩ := List.mem_map.1 hp
      cases hh : (f q).body.writes v with
      | false => rfl
      | true =>
        have := ((hf q).2.2 v).2.1 hh
        rw [hc v hv q hq] at this
        cases this
    obtain ⟨i1, i2⟩ := dropInstances_ok hs (fun g hg => hsub g (List.mem_cons_of_mem _ hg)) (dropInstance inside g d) hc' (hscope.mono h2)
    refine ⟨i1.trans h1, fun σ sched v hv => (i2 σ sched v fun hb => hv ?_).trans (h3 σ sched v hv)⟩
    rw [h1] at hb
    exact hb.mono h2

/-- C22, the whole pass: every variable that is left, and is not inside an instance that was removed, has the value it would have had. -/
theorem dead_code_partial {inside : Nat → Nat → Bool} {gs : List Gen} {ps : List Proc} (h : Plain gs ps) (hs : Scoped inside gs ps) (σ : Store)
    (sched : List Step) {v : VarId} (hv : v ∉ (deadCode inside gs ps).gone) (hb : ¬ Buried inside gs ps (deadCode inside gs ps).gone v) :
    (runs (deadCode inside gs ps).procs σ sched).st.val v = (runs ps σ sched).st.val v := by
  obtain ⟨I, P⟩ := deadVars_ok gs (fun _ h => h) ⟨ps, [], []⟩ ⟨h, fun _ hv => nomatch hv⟩
  obtain ⟨h1, h2⟩ := dropInstances_ok (inside := inside) gs (fun _ h => h) (deadVars gs ⟨ps, [], []⟩) I.clear (hs.mono P.shrink)
  have e : (deadCode inside gs ps).gone = (deadVars gs ⟨ps, [], []⟩).gone := h1
  rw [e] at hv hb
  exact (h2 σ sched v fun hh => hb (hh.mono P.shrink)).trans ((P.same σ sched).1 v hv)

/-- Variables left over by the loop have a registered reader: the loop does not stop early. -/
theorem varLoop_complete : ∀ (n : Nat) (vs : List VarId) (d : D), vs.length ≤ n → ∀ v ∈ vs, v ∉ (varLoop n vs d).gone → (varLoop n vs d).sink v = true
  | 0, vs, d, hn, v, hv, _ => by
    have : vs = [] := List.eq_nil_of_length_eq_zero (Nat.le_zero.1 hn)
    rw [this] at hv; cases hv
  | n + 1, vs, d, hn, v, hv, hg => by
    unfold varLoop at hg ⊢
    split at hg
    · rename_i u hf
      have hm := List.mem_of_find?_eq_some hf
      have hl : (vs.erase u).length ≤ n := by rw [List.length_erase_of_mem hm]; omega
      rcases Decidable.em (v = u) with rfl | hne
      · exfalso
        apply hg
        have keep : ∀ (n : Nat) (vs : List VarId) (d : D) (v : VarId), v ∈ d.gone → v ∈ (varLoop n vs d).gone := by
          intro n
          induction n with
          | zero => exact fun _ _ _ h => h
          | succ n ih =>
            intro vs d v h
            unfold varLoop
            split
            · exact ih _ _ _ (List.mem_cons_of_mem _ h)
            · exact h
        exact keep n _ _ _ (List.mem_cons_self ..)
      · exact varLoop_complete n (vs.erase u) (d.remove u) hl v ((List.mem_erase_of_ne hne).2 hv) hg
    · rename_i hf
      have := List.find?_eq_none.1 hf v hv
      simpa using this

theorem varLoop_gone : ∀ (n : Nat) (vs : List VarId) (d : D) (v : VarId), v ∈ (varLoop n vs d).gone → v ∈ d.gone ∨ v ∈ vs
  | 0, _, _, _, h => .inl h
  | n + 1, vs, d, v, h => by
    unfold varLoop at h
    split at h
    · rename_i u hf
      rcases varLoop_gone n _ _ v h with h | h
      · rcases List.mem_cons.1 h with rfl | h
        · exact .inr (List.mem_of_find?_eq_some hf)
        · exact .inl h
      · exact .inr (List.mem_of_mem_erase h)
    · exact .inl h

theorem fold_gone : ∀ (ps : List (VarId × Dir)) (d : D) (v : VarId), v ∈ (ps.foldl (fun d p => d.remove p.1) d).gone → v ∈ d.gone ∨ ∃ dir, (v, dir) ∈ ps
  | [], _, _, h => .inl h
  | p :: ps, d, v, h => by
    rcases fold_gone ps _ v h with h | ⟨dir, h⟩
    · rcases List.mem_cons.1 h with rfl | h
      · exact .inr ⟨p.2, List.mem_cons_self ..⟩
      · exact .inl h
    · exact .inr ⟨dir, List.mem_cons_of_mem _ h⟩

theorem drop_gone (inside : Nat → Nat → Bool) : ∀ (gs : List Gen) (d : D), (dropInstances inside gs d).gone = d.gone
  | [], _ => rfl
  | g :: gs, d => by
    show (dropInstances inside gs (dropInstance inside g d)).gone = _
    rw [drop_gone inside gs]
    unfold dropInstance
    split <;> rfl

/-- Only plain variables, and ports of instances, are removed: the ports of the top stay. -/
theorem gone_candidate (inside : Nat → Nat → Bool) (gs : List Gen) (ps : List Proc) (v : VarId) (h : v ∈ (deadCode inside gs ps).gone) : Candidate gs v := by
  have key : ∀ (hs : List Gen) (d : D), (∀ g ∈ hs, g ∈ gs) → (∀ v ∈ d.gone, Candidate gs v) → ∀ v ∈ (hs.foldl visitGen d).gone, Candidate gs v := by
    intro hs
    induction hs with
    | nil => exact fun _ _ h => h
    | cons g hs ih =>
      intro d hsub hd
      refine ih (visitGen d g) (fun g hg => hsub g (List.mem_cons_of_mem _ hg)) fun v hv => ?_
      have hg := hsub g (List.mem_cons_self ..)
      have loop : ∀ v ∈ (varLoop g.vars.length g.vars d).gone, Candidate gs v := fun v hv =>
        (varLoop_gone _ _ _ v hv).elim (hd v) fun hv => ⟨g, hg, .inl hv⟩
      unfold visitGen clearPorts at hv
      cases ht : g.top with
      | true => rw [ht, if_pos rfl] at hv; exact loop v hv
      | false =>
        rw [ht, if_neg Bool.false_ne_true] at hv
        rcases fold_gone _ _ v hv with hv | ⟨dir, hv⟩
        · exact loop v hv
        · exact ⟨g, hg, .inr ⟨ht, dir, (List.mem_filter.1 hv).1⟩⟩
  have e : (deadCode inside gs ps).gone = (deadVars gs ⟨ps, [], []⟩).gone := drop_gone inside gs _
  rw [e] at h
  exact key gs ⟨ps, [], []⟩ (fun _ h => h) (fun _ h => nomatch h) v h

/-- C22 for what the outside sees: a variable that is neither a plain variable nor a port of an instance, such as an output of the top, and
that no instance drives directly. -/
theorem outputs_unchanged_partial {inside : Nat → Nat → Bool} {gs : List Gen} {ps : List Proc} (h : Plain gs ps) (hs : Scoped inside gs ps) (σ : Store)
    (sched : List Step) {v : VarId} (hv : ¬ Candidate gs v) (hb : ∀ g ∈ gs, g.top = false → ∀ p ∈ ps, inside g.id p.owner = true → p.body.writes v = false) :
    (runs (deadCode inside gs ps).procs σ sched).st.val v = (runs ps σ sched).st.val v := by
  refine dead_code_partial h hs σ sched (fun hg => hv (gone_candidate inside gs ps v hg)) ?_
  rintro ⟨g, hg, ht, _, p, hp, hi, hw⟩
  rw [hb g hg ht p hp hi] at hw
  cases hw

/-- `remove_unused_vars`: no assignment or condition mentions a removed variable. -/
theorem unused_vars_unmentioned (ps : List Proc) (vs : List VarId) (v : VarId) (h : v ∈ unusedVars ps vs) :
    v ∈ vs ∧ ∀ p ∈ ps, p.body.reads v = false ∧ p.body.writes v = false := by
  obtain ⟨h1, h2⟩ := List.mem_filter.1 h
  simp only [Bool.and_eq_true, Bool.not_eq_true', D.sink, Bool.or_eq_false_iff] at h2
  exact ⟨h1, fun p hp => ⟨reads_false (d := ⟨ps, [], []⟩) h2.1.1 p hp, writes_false (d := ⟨ps, [], []⟩) h2.2 p hp⟩⟩

/-- ... and every variable that nothing mentions is removed. -/
theorem unused_vars_complete (ps : List Proc) (vs : List VarId) (v : VarId) (h : v ∈ vs) (h1 : ∀ p ∈ ps, p.body.reads v = false ∧ p.body.writes v = false) :
    v ∈ unusedVars ps vs := by
  refine List.mem_filter.2 ⟨h, ?_⟩
  have hr : (D.mk ps [] []).reads v = false := by
    cases hh : (D.mk ps [] []).reads v with
    | false => rfl
    | true => obtain ⟨p, hp, e⟩ := List.any_eq_true.1 hh; rw [(h1 p hp).1] at e; cases e
  have hw : (D.mk ps [] []).writes v = false := by
    cases hh : (D.mk ps [] []).writes v with
    | false => rfl
    | true => obtain ⟨p, hp, e⟩ := List.any_eq_true.1 hh; rw [(h1 p hp).2] at e; cases e
  simp [D.sink, hr, hw]

/-- `remove_unused_stmts`: a clock tick does the same without the empty blocks. -/
theorem unused_stmts_tick : ∀ (ps : List Proc) (old new : Store) (st : St),
    (unusedStmts ps).foldl (fun s p => if p.events.any (fired old new) then p.body.exec s else s) st =
      ps.foldl (fun s p => if p.events.any (fired old new) then p.body.exec s else s) st
  | [], _, _, _ => rfl
  | p :: ps, old, new, st => by
    unfold unusedStmts
    rw [List.filter_cons]
    cases hb : p.body with
    | nil =>
      simp only [Ss.isEmpty, Bool.not_true, Bool.false_eq_true, if_false, List.foldl_cons, hb, Ss.exec, ite_self]
      exact unused_stmts_tick ps old new st
    | cons s ss =>
      simp only [Ss.isEmpty, Bool.not_false, if_true, List.foldl_cons]
      exact unused_stmts_tick ps old new _

/-! ### Examples and witnesses -/

/-- One bit `v`, as a target and as an expression. -/
def bit (v : VarId) : LVal := ⟨v, 0, 1⟩
def rd (v : VarId) : Expr := .var v 1
def one (s : S) : Ss := .cons s .nil
/-- `v = e` in generator `o`. -/
def wire (o : Nat) (v : VarId) (e : Expr) : Proc := ⟨o, [], one (.assign false [bit v] e)⟩

/-- Top: inputs `0`, `1` (clock), output `2`, variables `3` (never read), `4`.  Child: clock-less, input `5`, output `6`, variable `7` never
read and fed by `8`, which is read only by it.  A second child has one input, `9`, that it does not use, and drives `10` inside. -/
def tree : List Gen := [⟨1, false, [7, 8], [(5, .inp), (6, .out)]⟩, ⟨2, false, [10], [(9, .inp)]⟩, ⟨0, true, [3, 4], [(0, .inp), (1, .inp), (2, .out)]⟩]

def flat : List Proc :=
  [wire 1 8 (rd 5), wire 1 7 (rd 8), wire 1 6 (.un .invert (rd 5)),
   ⟨2, [], one (.ite (rd 10) (one (.assign false [bit 10] (.const 1 0))) .nil)⟩,
   wire 0 9 (rd 0), wire 0 5 (rd 0), wire 0 3 (rd 6), ⟨0, [(true, 1)], one (.ite (rd 6) (one (.assign true [bit 4] (rd 0))) .nil)⟩, wire 0 2 (rd 4)]

def within (g o : Nat) : Bool := g == o || g == 0

theorem flat_plain : Plain tree flat := by
  refine ⟨?_, ?_, ?_⟩
  · intro p hp
    simp only [flat, List.mem_cons, List.mem_nil_iff, or_false] at hp
    rcases hp with rfl | rfl | rfl | rfl | rfl | rfl | rfl | rfl | rfl <;> simp [wire, one, Ss.single, S.single]
  · rintro v hv ⟨p, hp, h⟩
    have hne : v ≠ 1 := by
      rintro rfl
      obtain ⟨g, hg, h⟩ := hv
      simp only [tree, List.mem_cons, List.mem_nil_iff, or_false] at hg
      rcases hg with rfl | rfl | rfl <;> simp at h
    simp only [flat, List.mem_cons, List.mem_nil_iff, or_false] at hp
    rcases hp with rfl | rfl | rfl | rfl | rfl | rfl | rfl | rfl | rfl <;> simp [wire, one, Ss.args, S.args, hne] at h
  · intro g hg ht v hv
    simp only [tree, List.mem_cons, List.mem_nil_iff, or_false] at hg
    rcases hg with rfl | rfl | rfl
    · simp at hv
      subst hv
      exact .inl ⟨wire 1 6 (.un .invert (rd 5)), by simp [flat], rfl⟩
    · simp at hv
    · simp at ht

theorem flat_scoped : Scoped within tree flat := by
  intro g hg ht p hp hip q hq hiq v hw hr
  simp only [tree, List.mem_cons, List.mem_nil_iff, or_false] at hg
  simp only [flat, List.mem_cons, List.mem_nil_iff, or_false] at hp hq
  rcases hg with rfl | rfl | rfl
  · rcases hp with rfl | rfl | rfl | rfl | rfl | rfl | rfl | rfl | rfl <;> simp [within, wire] at hip <;>
      simp [wire, one, Ss.writes, S.writes, hits, bit] at hw <;> subst hw <;>
      (rcases hq with rfl | rfl | rfl | rfl | rfl | rfl | rfl | rfl | rfl <;> simp [within, wire] at hiq <;>
       simp [wire, one, Ss.reads, S.reads, Ss.args, S.args, rd, Expr.reads] at hr <;> exact ⟨.out, by simp⟩)
  · rcases hp with rfl | rfl | rfl | rfl | rfl | rfl | rfl | rfl | rfl <;> simp [within, wire] at hip <;>
      simp [one, Ss.writes, S.writes, hits, bit] at hw <;> subst hw <;>
      (rcases hq with rfl | rfl | rfl | rfl | rfl | rfl | rfl | rfl | rfl <;> simp [within, wire] at hiq <;>
       simp [wire, one, Ss.reads, S.reads, Ss.args, S.args, rd, Expr.reads] at hr)
  · simp at ht

/-- What goes: `7` then `8` of the first child, the unused input of the second and the unread variable of the top. -/
theorem flat_gone : (deadCode within tree flat).gone = [3, 9, 8, 7] := by rfl

/-- The output still follows the register, which is still clocked. -/
example : let sched : List Step := [.run 5, .run 2, .poke 1 1, .tick, .run 8]
    (runs (deadCode within tree flat).procs (fun _ => 0) ([.poke 0 0] ++ sched)).st.val 4 = (runs flat (fun _ => 0) ([.poke 0 0] ++ sched)).st.val 4 := by
  intro sched
  refine dead_code_partial flat_plain flat_scoped _ _ (by rw [flat_gone]; decide) ?_
  rw [flat_gone]
  rintro ⟨g, hg, ht, hp, p, hpm, hi, hw⟩
  simp only [tree, List.mem_cons, List.mem_nil_iff, or_false] at hg
  rcases hg with rfl | rfl | rfl
  · exact absurd (hp (5, .inp) (by simp)) (by decide)
  · simp only [flat, List.mem_cons, List.mem_nil_iff, or_false] at hpm
    rcases hpm with rfl | rfl | rfl | rfl | rfl | rfl | rfl | rfl | rfl <;> simp [within, wire] at hi <;>
      simp [one, Ss.writes, S.writes, hits, bit] at hw
  · simp at ht

/-- The output of the top, for every schedule. -/
example (σ : Store) (sched : List Step) : (runs (deadCode within tree flat).procs σ sched).st.val 2 = (runs flat σ sched).st.val 2 := by
  refine outputs_unchanged_partial flat_plain flat_scoped σ sched ?_ ?_
  · rintro ⟨g, hg, h⟩
    simp only [tree, List.mem_cons, List.mem_nil_iff, or_false] at hg
    rcases hg with rfl | rfl | rfl <;> simp at h
  · intro g hg ht p hp hi
    simp only [tree, List.mem_cons, List.mem_nil_iff, or_false] at hg
    simp only [flat, List.mem_cons, List.mem_nil_iff, or_false] at hp
    rcases hg with rfl | rfl | rfl
    · rcases hp with rfl | rfl | rfl | rfl | rfl | rfl | rfl | rfl | rfl <;> simp [within, wire] at hi <;> rfl
    · rcases hp with rfl | rfl | rfl | rfl | rfl | rfl | rfl | rfl | rfl <;> simp [within, wire] at hi <;> rfl
    · simp at ht

/-- A register in a child: its clock port `3` is used only in the event control, so it counts as unread. -/
def clocked : List Proc := [wire 0 3 (rd 0), wire 0 4 (rd 1), ⟨1, [(true, 3)], one (.assign true [bit 5] (rd 4))⟩, wire 0 2 (rd 5)]
def clockedGens : List Gen := [⟨1, false, [], [(3, .inp), (4, .inp), (5, .out)]⟩, ⟨0, true, [], [(0, .inp), (1, .inp), (2, .out)]⟩]

/-- The pass unwires the clock of every instance, and the output `2` stays as it was. -/
theorem clock_unwired : (deadCode within clockedGens clocked).gone = [3] ∧
    let sched : List Step := [.poke 1 1, .run 1, .poke 0 1, .run 0, .tick, .run 3]
    (runs clocked (fun _ => 0) sched).st.val 2 = 1 ∧ (runs (deadCode within clockedGens clocked).procs (fun _ => 0) sched).st.val 2 = 0 := by
  refine ⟨rfl, rfl, rfl⟩

/-- C22 fails. -/
theorem not_DeadClaim : ¬ DeadClaim := by
  intro h
  have := (h within clockedGens clocked (fun _ => 0) [.poke 1 1, .run 1, .poke 0 1, .run 0, .tick, .run 3]).1 2 rfl
  rw [clock_unwired.2.2] at this
  have e : (runs clocked (fun _ => 0) [.poke 1 1, .run 1, .poke 0 1, .run 0, .tick, .run 3]).st.val 2 = 1 := rfl
  rw [e] at this
  cases this

/-- `{3, 2} = {0, 0}` where `3` is not read: the whole assignment goes, and the output `2` loses its driver. -/
theorem concat_target_lost :
    let ps : List Proc := [⟨0, [], one (.assign false [bit 3, bit 2] (.concat (rd 0) (rd 0)))⟩]
    let gs : List Gen := [⟨0, true, [3], [(0, .inp), (2, .out)]⟩]
    (deadCode within gs ps).gone = [3] ∧ (runs ps (fun _ => 0) [.poke 0 1, .run 0]).st.val 2 % 2 = 1 ∧
      (runs (deadCode within gs ps).procs (fun _ => 0) [.poke 0 1, .run 0]).st.val 2 = 0 := by
  refine ⟨rfl, rfl, rfl⟩

/-- `2 = 0 ? 0 : 5` where `5` is an output that the child does not drive: the whole assignment goes, also for the case that does not use it. -/
theorem undriven_output_takes_reader :
    let ps : List Proc := [wire 0 2 (.cond (rd 0) (rd 0) (rd 5))]
    let gs : List Gen := [⟨1, false, [], [(5, .out)]⟩, ⟨0, true, [], [(0, .inp), (2, .out)]⟩]
    (deadCode within gs ps).gone = [5] ∧ (runs ps (fun _ => 0) [.poke 0 1, .run 0]).st.val 2 = 1 ∧
      (runs (deadCode within gs ps).procs (fun _ => 0) [.poke 0 1, .run 0]).st.val 2 = 0 := by
  refine ⟨rfl, rfl, rfl⟩

/-- A variable used only as the argument of a call loses its driver. -/
theorem call_argument_lost :
    let ps : List Proc := [wire 0 3 (rd 0), ⟨0, [], one (.call 7 [3])⟩]
    let gs : List Gen := [⟨0, true, [3], [(0, .inp)]⟩]
    (deadCode within gs ps).gone = [3] ∧ (runs ps (fun _ => 0) [.poke 0 1, .run 0, .run 1]).st.log = [(7, [1])] ∧
      (runs (deadCode within gs ps).procs (fun _ => 0) [.poke 0 1, .run 0, .run 1]).st.log = [(7, [0])] := by
  refine ⟨rfl, rfl, rfl⟩

theorem remove_gone : ∀ (l : List (VarId × Dir)) (d : D) (v : VarId), (v ∈ d.gone ∨ ∃ p ∈ l, p.1 = v) →
    v ∈ (l.foldl (fun d p => d.remove p.1) d).gone
  | [], d, v, h => by simpa using h
  | p :: l, d, v, h => by
    refine remove_gone l (d.remove p.1) v ?_
    rcases h with h | ⟨q, hq, rfl⟩
    · exact .inl (List.mem_cons_of_mem _ h)
    · rcases List.mem_cons.1 hq with rfl | hq
      · exact .inl (List.mem_cons_self ..)
      · exact .inr ⟨q, hq, rfl⟩

/-- The pass does not ask whether a generator is external (`Generator::accept_generator`, src/generator.hh:172).  The content of an external
module is in no register: nothing reads its inputs, nothing drives its outputs.  So all its ports go, whatever the design around it. -/
theorem black_box_removed (d : D) (g : Gen) (hv : g.vars = []) (ht : g.top = false)
    (h : ∀ p ∈ g.ports, (p.2 = .inp ∧ d.sink p.1 = false) ∨ (p.2 = .out ∧ d.writes p.1 = false)) : portless (visitGen d g) g = true := by
  unfold portless visitGen clearPorts
  rw [List.all_eq_true]
  intro p hp
  simp only [hv, List.length_nil, varLoop, ht, Bool.false_eq_true, if_false, List.contains_iff_mem]
  refine remove_gone _ _ _ (.inr ⟨p, List.mem_filter.2 ⟨hp, ?_⟩, rfl⟩)
  obtain ⟨v, k⟩ := p
  rcases h _ hp with ⟨h1, h2⟩ | ⟨h1, h2⟩
  · simp only at h1 h2; subst h1; simp [useless, h2]
  · simp only at h1 h2; subst h1; simp [useless, h2]

/-- An external module with input `5`, driven by `0`, and output `6`, read by `2`: it is a process that is in no register.  Both wires and
the instance go. -/
theorem external_lost :
    let ps : List Proc := [wire 0 5 (rd 0), ⟨1, [], one (.call 7 [5])⟩, wire 0 2 (rd 6)]
    let gs : List Gen := [⟨1, false, [], [(5, .inp), (6, .out)]⟩, ⟨0, true, [], [(0, .inp), (2, .out)]⟩]
    (deadCode within gs ps).gone = [6, 5] ∧ (deadCode within gs ps).procs.map (·.body.isEmpty) = [true, true, true] ∧
      (runs ps (fun _ => 0) [.poke 0 1, .run 0, .run 1]).st.log = [(7, [1])] ∧ (runs (deadCode within gs ps).procs (fun _ => 0) [.poke 0 1, .run 0, .run 1]).st.log = [] := by
  refine ⟨rfl, rfl, rfl, rfl⟩

/-- An instance without ports goes, although it makes calls: why `dead_code_partial` does not speak about the log. -/
theorem silent_instance_lost :
    let ps : List Proc := [⟨1, [], one (.call 7 [])⟩]
    let gs : List Gen := [⟨1, false, [], []⟩, ⟨0, true, [], []⟩]
    (runs ps (fun _ => 0) [.run 0]).st.log = [(7, [])] ∧ (runs (deadCode within gs ps).procs (fun _ => 0) [.run 0]).st.log = [] := by
  refine ⟨rfl, rfl⟩

/-- `remove_unused_vars` removes a clock or a call argument that nothing drives: it is mentioned, but not by an assignment. -/
theorem unused_clock_removed : let ps : List Proc := [⟨0, [(true, 3)], one (.assign true [bit 2] (rd 0))⟩]
    unusedVars ps [3, 4] = [3, 4] := by rfl

example : unusedVars [wire 0 3 (rd 0)] [0, 3, 4] = [4] := by rfl

example : (varLoop 2 [7, 8] ⟨flat, [], []⟩).gone = [8, 7] := by rfl

/-- `3 = 4[0]`, `3` unread: `3` goes, but `4`, now unread too, stays, because the reader of the slice stays registered. -/
theorem stale_slice_kept : (deadCode within [⟨0, true, [3, 4], [(0, .inp)]⟩] [wire 0 3 (.slice (.var 4 4) 0 0), wire 0 4 (rd 0)]).gone = [3] ∧
    (deadCode within [⟨0, true, [3, 4], [(0, .inp)]⟩] [wire 0 3 (.var 4 4), wire 0 4 (rd 0)]).gone = [4, 3] := by
  refine ⟨rfl, rfl⟩

end Kratos.Dead
