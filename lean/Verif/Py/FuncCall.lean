import Verif.Base

/-!
# Calling a Python function that becomes a SystemVerilog function (property C131)

A method decorated with `@function` or `@task` is translated when it is first called in a generator, with the types of
the arguments of that call, and every call connects its arguments by position (`kratos/func.py:7-58, 136-142, 151-153`,
`kratos/pyast.py:1240-1311`, `FuncScope` and `TaskScope` in `kratos/pyast.py:958-985`,
`FunctionStmtBlock::input`, `src/stmt.cc:722-728`, and the checks in `FunctionCallVar::FunctionCallVar`,
`src/expr.cc:2266-2290`).

How the body is translated is arbitrary: `tr` gives the code, or the exception.  The environment that it is translated in
(the local variables of the caller, and the keywords, which hide them) is an opaque value `env`.  Arguments are variables;
names of arguments are distinct, as Python demands where a theorem needs it; debug information is left out.
-/

namespace Kratos.FuncCall

abbrev Name := String

/-- A variable given as an argument. -/
structure Arg where
  id : Nat
  width : Nat
  signed : Bool
  deriving DecidableEq, Repr

/-- A decorated method: its name, its arguments as written (with `self`), whether it is a task, and its text. -/
structure PyFn where
  name : Name
  params : List Name
  task : Bool
  text : Nat
  deriving DecidableEq, Repr

/-- A translated body: the statements, and the type of what is returned. -/
structure Code where
  stmts : List Nat
  ret : Option (Nat × Bool)
  deriving DecidableEq, Repr

/-- A port of a function: name, width, sign. -/
structure Prt where
  name : Name
  width : Nat
  signed : Bool
  deriving DecidableEq, Repr

/-- A function of a generator.  `code = none`: nothing was added to its body. -/
structure Def where
  task : Bool
  ports : List Prt
  code : Option Code
  deriving DecidableEq, Repr

structure Gen where
  name : Name
  funcs : Name → Option Def

/-- The generators, and `FunctionCall.cache_ordering`. -/
structure St where
  gens : Nat → Gen
  cache : Name × Name → Option (List Name)

/-- A call in generator `gen`: `fn(*args, **keywords)`, where `as` is the keyword `name`. -/
structure Call where
  gen : Nat
  fn : PyFn
  as_ : Option Name
  env : Nat
  args : List Arg
  deriving DecidableEq, Repr

/-- A call expression: what each name is connected to, and the type of the result. -/
structure Expr where
  gen : Nat
  fname : Name
  conn : List (Name × Arg)
  ret : Option (Nat × Bool)
  deriving DecidableEq, Repr

/-- How a body is translated: the method, the generator, the ports, the environment. -/
abbrev Tr := PyFn → Nat → List Prt → Nat → Res Code

/-! ### Model -/

/-- `fn_name` (`kratos/func.py:24`). -/
def fnName (c : Call) : Name := c.as_.getD c.fn.name

/-- `extract_arg_name_order_from_ast` (`kratos/pyast.py:1306-1311`). -/
def order (F : PyFn) : List Name := F.params.filter fun n => n != "self"

/-- The types of the arguments (`kratos/func.py:27-29`) in `declare_var_definition` (`kratos/pyast.py:1293-1303`):
`none` if there are too few. -/
def ports : List Name → List Arg → Option (List Prt)
  | [], _ => some []
  | _ :: _, [] => none
  | n :: ns, a :: as => (ports ns as).map (⟨n, a.width, a.signed⟩ :: ·)

/-- `args_order[idx]` for every argument (`kratos/func.py:53-56`): a `KeyError` if there are too many. -/
def mapping : List Name → List Arg → Res (List (Name × Arg))
  | _, [] => .ok []
  | [], _ :: _ => .throw .user
  | n :: ns, a :: as => (mapping ns as).bind fun l => .ok ((n, a) :: l)

/-- The value of a key. -/
def at_ : List (Name × Arg) → Name → Option Arg
  | [], _ => none
  | (k, a) :: l, n => if k = n then some a else at_ l n

/-- The ports, one after another (`src/expr.cc:2271-2284`). -/
def check : List Prt → List (Name × Arg) → Res Unit
  | [], _ => .ok ()
  | p :: ps, m =>
    match at_ m p.name with
    | none => .throw .var
    | some a =>
      if p.width ≠ a.width then .throw .var
      else if p.signed ≠ a.signed then .throw .var
      else check ps m

/-- What a function returns (`function_handler`). -/
def retOf (d : Def) : Option (Nat × Bool) := d.code.bind (·.ret)

/-- The end of `FunctionCall.__call__` (`kratos/func.py:51-58`), with `Generator::call` (`src/generator.cc:294-303,
322-325`) and the constructor of the call (`src/expr.cc:2266-2290, 2313-2317`). -/
def connect (d : Def) (g : Nat) (f : Name) (ord : List Name) (args : List Arg) : Res Expr :=
  (mapping ord args).bind fun m =>
  (check d.ports m).bind fun _ =>
  if retOf d = none ∧ d.task = false then .throw .stmt
  else .ok ⟨g, f, m, retOf d⟩

def setFn (s : St) (g : Nat) (f : Name) (d : Def) : St :=
  ⟨fun k => if k = g then ⟨(s.gens g).name, fun n => if n = f then some d else (s.gens g).funcs n⟩ else s.gens k,
   s.cache⟩

def setCache (s : St) (n f : Name) (ord : List Name) : St :=
  ⟨s.gens, fun k => if k = (n, f) then some ord else s.cache k⟩

/-- `FunctionCall.__call__` (`kratos/func.py:18-58`): what is left behind, and the result.  The method must have an
argument (`kratos/pyast.py:1255`), the function is created (`kratos/pyast.py:964, 982`), then its ports
(`kratos/pyast.py:1269-1274`), and then the method is run as `method(_self, scope)`, or as `method(scope)` if its first
argument is not `self` (`kratos/pyast.py:1128-1135, 1290`), which Python refuses.  The statements are added afterwards
(`kratos/func.py:37-42`). -/
def call (tr : Tr) (s : St) (c : Call) : St × Res Expr :=
  match (s.gens c.gen).funcs (fnName c) with
  | some d =>
    match s.cache ((s.gens c.gen).name, fnName c) with
    | none => (s, .throw .user)
    | some ord => (s, connect d c.gen (fnName c) ord c.args)
  | none =>
    match c.fn.params with
    | [] => (s, .throw .user)
    | first :: _ =>
      match ports (order c.fn) c.args with
      | none => (setFn s c.gen (fnName c) ⟨c.fn.task, [], none⟩, .throw .user)
      | some ps =>
        if first ≠ "self" then (setFn s c.gen (fnName c) ⟨c.fn.task, ps, none⟩, .throw .user)
        else
          match tr c.fn c.gen ps c.env with
          | .throw e => (setFn s c.gen (fnName c) ⟨c.fn.task, ps, none⟩, .throw e)
          | .ub => (setFn s c.gen (fnName c) ⟨c.fn.task, ps, none⟩, .ub)
          | .ok code =>
            (setCache (setFn s c.gen (fnName c) ⟨c.fn.task, ps, some code⟩) (s.gens c.gen).name (fnName c) (order c.fn),
             connect ⟨c.fn.task, ps, some code⟩ c.gen (fnName c) (order c.fn) c.args)

/-- What a program does: it calls, renames a generator (`kratos/generator.py:313-315`), declares a function directly
(`Generator::function`, `src/generator.cc:327-334`, with ports and body; refused if there is one), or calls
`clear_context` (`kratos/func.py:151-153`). -/
inductive Op where
  | call (c : Call)
  | rename (g : Nat) (n : Name)
  | declare (g : Nat) (f : Name) (d : Def)
  | clear

/-- One operation; exceptions are caught by the program. -/
def step (tr : Tr) (s : St) : Op → St
  | .call c => (call tr s c).1
  | .rename g n => ⟨fun k => if k = g then ⟨n, (s.gens g).funcs⟩ else s.gens k, s.cache⟩
  | .declare g f d =>
    match (s.gens g).funcs f with
    | some _ => s
    | none => setFn s g f d
  | .clear => ⟨s.gens, fun _ => none⟩

/-- A history. -/
def run (tr : Tr) (s : St) : List Op → St
  | [] => s
  | o :: os => run tr (step tr s o) os

/-- Generators without functions. -/
def start (names : Nat → Name) : St := ⟨fun k => ⟨names k, fun _ => none⟩, fun _ => none⟩

/-! ### Specification -/

/-- What the user wrote after `self`. -/
def Formals (F : PyFn) (l : List Name) : Prop := F.params = "self" :: l

/-- A method as Python accepts them, as a method: `self` and then distinct other names. -/
def Method (F : PyFn) : Prop := ∃ l, Formals F l ∧ l.Nodup ∧ "self" ∉ l

/-- The call expression connects the arguments by position, all of them, and nothing else. -/
def ByPosition (F : PyFn) (args : List Arg) (e : Expr) : Prop :=
  ∃ l, Formals F l ∧ l.length = args.length ∧ e.conn.map (·.1) = l ∧ e.conn.map (·.2) = args

/-- The function that the expression calls is the method's translation for the types of these arguments. -/
def Translated (tr : Tr) (s : St) (c : Call) (e : Expr) : Prop :=
  ∃ d code ps, (s.gens e.gen).funcs e.fname = some d ∧ d.task = c.fn.task ∧ d.ports = ps ∧ d.code = some code ∧
    tr c.fn c.gen ps c.env = .ok code ∧ e.ret = code.ret ∧
    (∃ l, Formals c.fn l ∧ ps.map (·.name) = l) ∧
    ps.map (fun p => (p.width, p.signed)) = c.args.map (fun a => (a.width, a.signed))

/-- What a user expects: an accepted call connects its arguments by position. -/
def PositionClaim : Prop :=
  ∀ (tr : Tr) names os c e, Method c.fn → (call tr (run tr (start names) os) c).2 = .ok e →
    ByPosition c.fn c.args e

/-- What a user expects: an accepted call calls what the method says. -/
def TranslatedClaim : Prop :=
  ∀ (tr : Tr) names os c e, Function.Injective names → (∀ o ∈ os, ∃ c, o = .call c) → Method c.fn →
    (call tr (run tr (start names) os) c).2 = .ok e →
    Translated tr (call tr (run tr (start names) os) c).1 c e

/-- What a user expects: a call that was accepted is accepted again later. -/
def AgainClaim : Prop :=
  ∀ (tr : Tr) names os os' c e, Method c.fn → (call tr (run tr (start names) os) c).2 = .ok e →
    ∃ e', (call tr (run tr (run tr (start names) (os ++ [.call c])) os') c).2 = .ok e'

/-- What a user expects: a refused call can be corrected and repeated. -/
def RetryClaim : Prop :=
  ∀ (tr : Tr) names c c' e, Method c.fn → c'.fn = c.fn → c'.gen = c.gen → c'.as_ = c.as_ → c'.env = c.env →
    (∀ e, (call tr (start names) c').2 ≠ .ok e) → (call tr (start names) c).2 = .ok e →
    ∃ e', (call tr (call tr (start names) c').1 c).2 = .ok e'

/-- Calls in which a name in a generator stands for one method in one environment. -/
def Consistent (os : List Op) : Prop :=
  ∀ c c', Op.call c ∈ os → Op.call c' ∈ os → c.gen = c'.gen → c.as_.getD c.fn.name = c'.as_.getD c'.fn.name →
    c.fn = c'.fn ∧ c.env = c'.env

/-- Nothing but calls and `clear_context`. -/
def OnlyCalls (os : List Op) : Prop := ∀ o ∈ os, o = .clear ∨ ∃ c, o = .call c

/-! ### Lemmas -/

theorem order_method {F : PyFn} {l : List Name} (h : Formals F l) (hs : "self" ∉ l) : order F = l := by
  unfold order
  rw [h, List.filter_cons]
  simp only [bne_self_eq_false, Bool.false_eq_true, if_false]
  exact List.filter_eq_self.2 fun a ha => by
    have : a ≠ "self" := fun e => hs (e ▸ ha)
    simpa using this

theorem ports_spec : ∀ {ns : List Name} {as : List Arg} {ps : List Prt}, ports ns as = some ps →
    ns.length ≤ as.length ∧ ps.map (·.name) = ns ∧
    ps.map (fun p => (p.width, p.signed)) = (as.take ns.length).map fun a => (a.width, a.signed)
  | [], as, ps, h => by simp [ports] at h; subst h; simp
  | _ :: _, [], ps, h => by simp [ports] at h
  | n :: ns, a :: as, ps, h => by
    simp only [ports, Option.map_eq_some_iff] at h
    obtain ⟨qs, hq, rfl⟩ := h
    obtain ⟨h1, h2, h3⟩ := ports_spec hq
    refine ⟨by simpa using h1, by simp [h2], by simp [h3]⟩

theorem mapping_spec : ∀ {ns : List Name} {as : List Arg} {m : List (Name × Arg)}, mapping ns as = .ok m →
    as.length ≤ ns.length ∧ m.map (·.1) = ns.take as.length ∧ m.map (·.2) = as
  | ns, [], m, h => by cases ns <;> simp [mapping] at h <;> subst h <;> simp
  | [], _ :: _, m, h => by simp [mapping] at h
  | n :: ns, a :: as, m, h => by
    simp only [mapping, Res.bind_eq_ok, Res.ok.injEq] at h
    obtain ⟨l, hl, rfl⟩ := h
    obtain ⟨h1, h2, h3⟩ := mapping_spec hl
    refine ⟨by simpa using h1, by simp [h2], by simp [h3]⟩

theorem mapping_ok : ∀ {ns : List Name} {as : List Arg}, as.length ≤ ns.length → ∃ m, mapping ns as = .ok m
  | ns, [], _ => by cases ns <;> exact ⟨[], rfl⟩
  | [], _ :: _, h => by simp at h
  | n :: ns, a :: as, h => by
    obtain ⟨m, hm⟩ := mapping_ok (ns := ns) (as := as) (by simpa using h)
    exact ⟨(n, a) :: m, by simp [mapping, hm, Res.ok_bind]⟩

theorem at_mem : ∀ {m : List (Name × Arg)} {n : Name} {a : Arg}, at_ m n = some a → (n, a) ∈ m
  | [], _, _, h => by simp [at_] at h
  | (k, b) :: m, n, a, h => by
    simp only [at_] at h
    split at h
    · next e => cases h; subst e; simp
    · exact List.mem_cons_of_mem _ (at_mem h)

theorem at_of_mem : ∀ {m : List (Name × Arg)} {n : Name} {a : Arg}, (m.map (·.1)).Nodup → (n, a) ∈ m →
    at_ m n = some a
  | [], _, _, _, h => by simp at h
  | (k, b) :: m, n, a, hn, h => by
    simp only [List.map_cons, List.nodup_cons] at hn
    simp only [at_]
    rcases List.mem_cons.1 h with h | h
    · cases h; simp
    · have : k ≠ n := fun e => hn.1 (e ▸ List.mem_map.2 ⟨_, h, rfl⟩)
      rw [if_neg this]
      exact at_of_mem hn.2 h

theorem check_iff : ∀ {ps : List Prt} {m : List (Name × Arg)}, check ps m = .ok () ↔
    ∀ p ∈ ps, ∃ a, at_ m p.name = some a ∧ a.width = p.width ∧ a.signed = p.signed
  | [], m => by simp [check]
  | p :: ps, m => by
    have ih := check_iff (ps := ps) (m := m)
    simp only [check, List.mem_cons, forall_eq_or_imp]
    cases h : at_ m p.name with
    | none => simp
    | some a =>
      simp only [Option.some.injEq]
      by_cases h1 : p.width = a.width
      · by_cases h2 : p.signed = a.signed
        · simp [h1, h2, ih]
        · have : ¬ a.signed = p.signed := fun e => h2 e.symm
          simp [h1, h2, this]
      · have : ¬ a.width = p.width := fun e => h1 e.symm
        simp [h1, this]

theorem connect_iff {d : Def} {g : Nat} {f : Name} {ord : List Name} {args : List Arg} {e : Expr} :
    connect d g f ord args = .ok e ↔
      ∃ m, mapping ord args = .ok m ∧ check d.ports m = .ok () ∧ (retOf d ≠ none ∨ d.task = true) ∧
        e = ⟨g, f, m, retOf d⟩ := by
  unfold connect
  simp only [Res.bind_eq_ok]
  constructor
  · rintro ⟨m, hm, u, hc, h⟩
    split at h
    · cases h
    · next hn =>
      refine ⟨m, hm, hc, ?_, by cases h; rfl⟩
      by_cases hr : retOf d = none
      · right
        cases ht : d.task
        · exact absurd ⟨hr, ht⟩ hn
        · rfl
      · exact Or.inl hr
  · rintro ⟨m, hm, hc, hr, rfl⟩
    refine ⟨m, hm, (), hc, ?_⟩
    rw [if_neg]
    rintro ⟨h1, h2⟩
    rcases hr with hr | hr
    · exact hr h1
    · rw [h2] at hr; cases hr

theorem connect_full {ps : List Prt} {l : List Name} {args : List Arg} {m : List (Name × Arg)}
    (hp : ps.map (·.name) = l) (hn : l.Nodup) (hm : mapping l args = .ok m) (hc : check ps m = .ok ()) :
    l.length = args.length ∧ m.map (·.1) = l ∧ m.map (·.2) = args ∧
    ps.map (fun p => (p.width, p.signed)) = args.map fun a => (a.width, a.signed) := by
  obtain ⟨h1, h2, h3⟩ := mapping_spec hm
  rw [check_iff] at hc
  have hlen : l.length = args.length := by
    refine Nat.le_antisymm (Nat.le_of_not_lt fun hlt => ?_) h1
    have hmem : l[args.length] ∈ ps.map (·.name) := by rw [hp]; exact List.getElem_mem _
    obtain ⟨p, hpm, hpn⟩ := List.mem_map.1 hmem
    obtain ⟨a, ha, _⟩ := hc p hpm
    have : l[args.length] ∈ l.take args.length := by
      rw [← h2, ← hpn]
      exact List.mem_map.2 ⟨_, at_mem ha, rfl⟩
    obtain ⟨i, hi, he⟩ := List.mem_iff_getElem.1 this
    rw [List.getElem_take] at he
    have hi' : i < args.length := by simp at hi; omega
    rw [List.nodup_iff_pairwise_ne, List.pairwise_iff_getElem] at hn
    exact hn i args.length (by omega) hlt hi' he
  have h2' : m.map (·.1) = l := by rw [h2, ← hlen, List.take_length]
  refine ⟨hlen, h2', h3, ?_⟩
  have hlp : ps.length = args.length := by rw [← hlen, ← hp]; simp
  have hlm : m.length = args.length := by rw [← h3]; simp
  refine List.ext_getElem (by simpa using hlp) fun i hi hi' => ?_
  simp only [List.length_map] at hi hi'
  rw [List.getElem_map, List.getElem_map]
  obtain ⟨a, ha, hw, hs⟩ := hc ps[i] (List.getElem_mem _)
  have e1 : ps[i].name = l[i]'(by omega) := by
    have : (ps.map (·.name))[i]'(by simpa using hi) = l[i]'(by omega) := by simp only [hp]
    simpa using this
  have e2 : m[i]'(by omega) = (l[i]'(by omega), args[i]) := by
    have a1 : (m.map (·.1))[i]'(by simp; omega) = l[i]'(by omega) := by simp only [h2']
    have a2 : (m.map (·.2))[i]'(by simp; omega) = args[i] := by simp only [h3]
    rw [List.getElem_map] at a1 a2
    exact Prod.ext a1 a2
  have e3 : at_ m ps[i].name = some args[i] := by
    refine at_of_mem (by rw [h2']; exact hn) ?_
    rw [e1, ← e2]
    exact List.getElem_mem _
  rw [e3] at ha
  cases ha
  rw [hw, hs]

/-- What a call does to a state. -/
theorem call_frame (tr : Tr) (s : St) (c : Call) :
    (∀ k, ((call tr s c).1.gens k).name = (s.gens k).name) ∧
    (∀ g f d, (s.gens g).funcs f = some d → ((call tr s c).1.gens g).funcs f = some d) ∧
    (∀ g f, ¬ (g = c.gen ∧ f = fnName c) → ((call tr s c).1.gens g).funcs f = (s.gens g).funcs f) := by
  have key : ∀ d, (s.gens c.gen).funcs (fnName c) = none →
      (∀ k, ((setFn s c.gen (fnName c) d).gens k).name = (s.gens k).name) ∧
      (∀ g f d', (s.gens g).funcs f = some d' → ((setFn s c.gen (fnName c) d).gens g).funcs f = some d') ∧
      (∀ g f, ¬ (g = c.gen ∧ f = fnName c) →
        ((setFn s c.gen (fnName c) d).gens g).funcs f = (s.gens g).funcs f) := by
    intro d hnone
    refine ⟨fun k => ?_, fun g f d' h => ?_, fun g f h => ?_⟩
    · simp only [setFn]; split
      · next e => subst e; rfl
      · rfl
    · simp only [setFn]; split
      · next e =>
        subst e
        simp only
        split
        · next e => subst e; rw [hnone] at h; cases h
        · exact h
      · exact h
    · simp only [setFn]; split
      · next e =>
        subst e
        simp only
        split
        · next e => exact absurd ⟨rfl, e⟩ h
        · rfl
      · rfl
  unfold call
  cases hf : (s.gens c.gen).funcs (fnName c) with
  | some d =>
    simp only
    split
    · exact ⟨fun _ => rfl, fun _ _ _ h => h, fun _ _ _ => rfl⟩
    · exact ⟨fun _ => rfl, fun _ _ _ h => h, fun _ _ _ => rfl⟩
  | none =>
    simp only
    split
    · exact ⟨fun _ => rfl, fun _ _ _ h => h, fun _ _ _ => rfl⟩
    · split
      · exact key _ hf
      · split
        · exact key _ hf
        · split
          · exact key _ hf
          · exact key _ hf
          · exact key _ hf

/-- A call that changes the cache is the first one, and its translation was accepted. -/
theorem call_cache (tr : Tr) (s : St) (c : Call) (k : Name × Name) :
    (call tr s c).1.cache k = s.cache k ∨
    (k = ((s.gens c.gen).name, fnName c) ∧ (s.gens c.gen).funcs (fnName c) = none ∧
      (call tr s c).1.cache k = some (order c.fn) ∧ c.fn.params.head? = some "self" ∧
      ∃ ps code, ports (order c.fn) c.args = some ps ∧ tr c.fn c.gen ps c.env = .ok code ∧
        ((call tr s c).1.gens c.gen).funcs (fnName c) = some ⟨c.fn.task, ps, some code⟩) := by
  unfold call
  cases hf : (s.gens c.gen).funcs (fnName c) with
  | some d => simp only; split <;> exact Or.inl rfl
  | none =>
    simp only
    split
    · exact Or.inl rfl
    · next first _ hp =>
      split
      · exact Or.inl rfl
      · next ps hps =>
        split
        · exact Or.inl rfl
        · next hself =>
          split
          · exact Or.inl rfl
          · exact Or.inl rfl
          · next code hcode =>
            by_cases hk : k = ((s.gens c.gen).name, fnName c)
            · refine Or.inr ⟨hk, trivial, by simp [setCache, hk], ?_, ps, code, hps, hcode, by simp [setCache, setFn]⟩
              rw [hp]
              simpa using hself
            · exact Or.inl (by simp [setCache, setFn, hk])

/-- What holds after calls in generators with distinct names. -/
structure Inv (tr : Tr) (names : Nat → Name) (os : List Op) (s : St) : Prop where
  nm : ∀ k, (s.gens k).name = names k
  cache : ∀ g f ord, s.cache (names g, f) = some ord → ∃ c, Op.call c ∈ os ∧ c.gen = g ∧ fnName c = f ∧
    ord = order c.fn ∧ ∃ ps code, ports (order c.fn) c.args = some ps ∧ tr c.fn g ps c.env = .ok code ∧
      (s.gens g).funcs f = some ⟨c.fn.task, ps, some code⟩

theorem inv_start (tr : Tr) (names : Nat → Name) : Inv tr names [] (start names) :=
  ⟨fun _ => rfl, fun _ _ _ h => by simp [start] at h⟩

theorem inv_step {tr : Tr} {names : Nat → Name} {os : List Op} {s : St} (hi : Function.Injective names)
    (h : Inv tr names os s) (o : Op) (ho : o = .clear ∨ ∃ c, o = .call c) :
    Inv tr names (os ++ [o]) (step tr s o) := by
  rcases ho with rfl | ⟨c, rfl⟩
  · exact ⟨h.nm, fun g f ord hc => by simp [step] at hc⟩
  · obtain ⟨f1, f2, f3⟩ := call_frame tr s c
    refine ⟨fun k => by simpa [step] using (f1 k).trans (h.nm k), fun g f ord hc => ?_⟩
    simp only [step] at hc ⊢
    rcases call_cache tr s c (names g, f) with he | ⟨hk, hnone, hset, -, ps, code, hps, hcode, hd⟩
    · rw [he] at hc
      obtain ⟨c0, hm, hg, hf, hord, ps, code, hps, hcode, hd⟩ := h.cache g f ord hc
      exact ⟨c0, by simp [hm], hg, hf, hord, ps, code, hps, hcode, f2 _ _ _ hd⟩
    · rw [h.nm] at hk
      obtain ⟨e1, e2⟩ := Prod.mk.inj hk
      have e1 := hi e1
      subst e1; subst e2
      rw [hset] at hc
      cases hc
      exact ⟨c, by simp, rfl, rfl, rfl, ps, code, hps, hcode, hd⟩

theorem run_append (tr : Tr) : ∀ (s : St) (os os' : List Op), run tr s (os ++ os') = run tr (run tr s os) os'
  | _, [], _ => rfl
  | s, o :: os, os' => by simp only [List.cons_append, run]; exact run_append tr _ os os'

theorem inv_run {tr : Tr} {names : Nat → Name} (hi : Function.Injective names) : ∀ (os os0 : List Op) (s : St),
    Inv tr names os0 s → OnlyCalls os → Inv tr names (os0 ++ os) (run tr s os)
  | [], os0, s, h, _ => by simpa [run] using h
  | o :: os, os0, s, h, ho => by
    have := inv_run hi os (os0 ++ [o]) _ (inv_step hi h o (ho o (by simp)))
      fun o' h' => ho o' (List.mem_cons_of_mem _ h')
    simpa [run] using this

/-! ### Theorems -/

/-- An accepted call, in any state: it calls the function of that name in this generator, every port of which is
connected to an argument of its width and sign; each argument is connected once; and the function returns something,
unless it is a task. -/
theorem call_typed {tr : Tr} {s : St} {c : Call} {e : Expr} (h : (call tr s c).2 = .ok e) :
    e.gen = c.gen ∧ e.fname = c.as_.getD c.fn.name ∧ e.conn.map (·.2) = c.args ∧
    ∃ d, ((call tr s c).1.gens e.gen).funcs e.fname = some d ∧
      (∀ p ∈ d.ports, ∃ a, (p.name, a) ∈ e.conn ∧ a.width = p.width ∧ a.signed = p.signed) ∧
      (d.task = true ∨ ∃ code t, d.code = some code ∧ code.ret = some t ∧ e.ret = some t) := by
  have fin : ∀ {d : Def} {ord : List Name}, connect d c.gen (fnName c) ord c.args = .ok e →
      e.gen = c.gen ∧ e.fname = fnName c ∧ e.conn.map (·.2) = c.args ∧
      (∀ p ∈ d.ports, ∃ a, (p.name, a) ∈ e.conn ∧ a.width = p.width ∧ a.signed = p.signed) ∧
      (d.task = true ∨ ∃ code t, d.code = some code ∧ code.ret = some t ∧ e.ret = some t) := by
    intro d ord h
    obtain ⟨m, hm, hc, hr, rfl⟩ := connect_iff.1 h
    refine ⟨rfl, rfl, (mapping_spec hm).2.2, fun p hp => ?_, ?_⟩
    · obtain ⟨a, ha, hw⟩ := check_iff.1 hc p hp
      exact ⟨a, at_mem ha, hw⟩
    · rcases hr with hr | hr
      · right
        cases hcode : d.code with
        | none => simp [retOf, hcode] at hr
        | some code =>
          cases hret : code.ret with
          | none => simp [retOf, hcode, hret] at hr
          | some t => exact ⟨code, t, rfl, hret, by simp [retOf, hcode, hret]⟩
      · exact Or.inl hr
  unfold call at h ⊢
  cases hf : (s.gens c.gen).funcs (fnName c) with
  | some d =>
    rw [hf] at h
    simp only at h ⊢
    split at h
    · cases h
    · next ord hord =>
      obtain ⟨h1, h2, h3, h4, h5⟩ := fin h
      refine ⟨h1, h2, h3, d, ?_, h4, h5⟩
      simp only [h1, h2, hf]
  | none =>
    rw [hf] at h
    simp only at h ⊢
    split at h
    · cases h
    · split at h
      · cases h
      · split at h
        · cases h
        · next hself =>
          split at h
          · cases h
          · cases h
          · next code hcode =>
            obtain ⟨h1, h2, h3, h4, h5⟩ := fin h
            refine ⟨h1, h2, h3, _, ?_, h4, h5⟩
            rw [if_neg hself]
            simp only [h1, h2, setCache, setFn, if_true]

/-- A call leaves the functions there are, the functions of other names and generators, and all names of generators. -/
theorem call_keeps (tr : Tr) (s : St) (c : Call) :
    (∀ k, ((call tr s c).1.gens k).name = (s.gens k).name) ∧
    (∀ g f d, (s.gens g).funcs f = some d → ((call tr s c).1.gens g).funcs f = some d) ∧
    (∀ g f, g ≠ c.gen ∨ f ≠ c.as_.getD c.fn.name →
      ((call tr s c).1.gens g).funcs f = (s.gens g).funcs f) := by
  obtain ⟨h1, h2, h3⟩ := call_frame tr s c
  refine ⟨h1, h2, fun g f h => h3 g f ?_⟩
  rintro ⟨e1, e2⟩
  rcases h with h | h
  · exact h e1
  · exact h e2

/-- Partial: if the generators have distinct names and keep them, and a name in a generator stands for one method in one
environment, every accepted call connects by position and calls the translation of its method for its types. -/
theorem call_partial {tr : Tr} {names : Nat → Name} {os : List Op} {c : Call} {e : Expr}
    (hi : Function.Injective names) (ho : OnlyCalls os) (hcons : Consistent (os ++ [.call c])) (hF : Method c.fn)
    (h : (call tr (run tr (start names) os) c).2 = .ok e) :
    ByPosition c.fn c.args e ∧ Translated tr (call tr (run tr (start names) os) c).1 c e := by
  have inv := inv_run (tr := tr) hi os [] _ (inv_start tr names) ho
  simp only [List.nil_append] at inv
  generalize hs : run tr (start names) os = s at h inv ⊢
  obtain ⟨l, hl, hnd, hself⟩ := hF
  have hord := order_method hl hself
  have fin : ∀ {ps : List Prt} {code : Code}, ps.map (·.name) = l → tr c.fn c.gen ps c.env = .ok code →
      ((call tr s c).1.gens c.gen).funcs (fnName c) = some ⟨c.fn.task, ps, some code⟩ →
      connect ⟨c.fn.task, ps, some code⟩ c.gen (fnName c) l c.args = .ok e →
      ByPosition c.fn c.args e ∧ Translated tr (call tr s c).1 c e := by
    intro ps code hp hcode hd hcn
    obtain ⟨m, hm, hc, hr, rfl⟩ := connect_iff.1 hcn
    obtain ⟨a1, a2, a3, a4⟩ := connect_full hp hnd hm hc
    exact ⟨⟨l, hl, a1, a2, a3⟩, _, code, ps, hd, rfl, rfl, rfl, hcode, rfl, ⟨l, hl, hp⟩, a4⟩
  cases hf : (s.gens c.gen).funcs (fnName c) with
  | some d =>
    have hkeep := (call_frame tr s c).2.1 _ _ _ hf
    have h' := h
    unfold call at h'
    rw [hf] at h'
    simp only at h'
    split at h'
    · cases h'
    · next ord hc =>
      rw [inv.nm] at hc
      obtain ⟨c0, hm0, hg0, hf0, rfl, ps, code, hps, hcode, hd⟩ := inv.cache _ _ _ hc
      obtain ⟨e1, e2⟩ := hcons c0 c (by simp [hm0]) (by simp) hg0 hf0
      rw [e1] at hps hcode hd h'
      rw [hf] at hd
      cases hd
      rw [hord] at h' hps
      exact fin (ports_spec hps).2.1 (by rw [← e2]; exact hcode) hkeep h'
  | none =>
    have h' := h
    unfold call at h'
    rw [hf] at h'
    simp only at h'
    split at h'
    · cases h'
    · next first _ hp =>
      split at h'
      · cases h'
      · next ps hps =>
        split at h'
        · cases h'
        · next hfirst =>
          split at h'
          · cases h'
          · cases h'
          · next code hcode =>
            simp only [hord] at h' hps
            refine fin (ports_spec hps).2.1 hcode ?_ h'
            unfold call
            rw [hf]
            simp only [hp, hord, hps]
            rw [if_neg hfirst]
            simp only [hcode, setCache, setFn, if_true]

/-- The first call of a method in a generator is accepted just if it has as many arguments as the method, the body can be
translated for their types, and something is returned, unless it is a task. -/
theorem first_call {tr : Tr} {s : St} {c : Call} {l : List Name} (hl : Formals c.fn l) (hn : l.Nodup)
    (hself : "self" ∉ l) (hnew : (s.gens c.gen).funcs (c.as_.getD c.fn.name) = none) :
    (∃ e, (call tr s c).2 = .ok e) ↔
      ∃ ps code, ps.map (·.name) = l ∧
        ps.map (fun p => (p.width, p.signed)) = c.args.map (fun a => (a.width, a.signed)) ∧
        tr c.fn c.gen ps c.env = .ok code ∧ (code.ret ≠ none ∨ c.fn.task = true) := by
  have hord := order_method hl hself
  have hp : c.fn.params = "self" :: l := hl
  have hnew' : (s.gens c.gen).funcs (fnName c) = none := hnew
  have hcall : (call tr s c).2 =
      match ports l c.args with
      | none => .throw .user
      | some ps =>
        match tr c.fn c.gen ps c.env with
        | .throw e => .throw e
        | .ub => .ub
        | .ok code => connect ⟨c.fn.task, ps, some code⟩ c.gen (fnName c) l c.args := by
    unfold call
    rw [hnew']
    simp only [hp, hord]
    cases ports l c.args with
    | none => rfl
    | some ps =>
      simp only [ne_eq, not_true, if_false]
      cases tr c.fn c.gen ps c.env <;> rfl
  constructor
  · rintro ⟨e, h⟩
    rw [hcall] at h
    cases hps : ports l c.args with
    | none => rw [hps] at h; cases h
    | some ps =>
      rw [hps] at h
      simp only at h
      cases hcode : tr c.fn c.gen ps c.env with
      | throw e => rw [hcode] at h; cases h
      | ub => rw [hcode] at h; cases h
      | ok code =>
        rw [hcode] at h
        obtain ⟨m, hm, hc, hr, rfl⟩ := connect_iff.1 h
        obtain ⟨a1, a2, a3, a4⟩ := connect_full (ports_spec hps).2.1 hn hm hc
        exact ⟨ps, code, (ports_spec hps).2.1, a4, hcode, hr⟩
  · rintro ⟨ps, code, h1, h2, hcode, hr⟩
    have hlen : l.length = c.args.length := by
      have e1 := congrArg List.length h1
      have e2 := congrArg List.length h2
      simp at e1 e2
      omega
    have hps : ∀ {l : List Name} {as : List Arg}, l.length = as.length → ∃ qs, ports l as = some qs := by
      intro l
      induction l with
      | nil => intro as _; exact ⟨[], by cases as <;> rfl⟩
      | cons n l ih =>
        intro as h
        cases as with
        | nil => simp at h
        | cons a as =>
          obtain ⟨qs, hq⟩ := ih (as := as) (by simpa using h)
          exact ⟨⟨n, a.width, a.signed⟩ :: qs, by simp [ports, hq]⟩
    obtain ⟨qs, hqs⟩ := hps hlen
    obtain ⟨-, q1, q2⟩ := ports_spec hqs
    rw [hlen, List.take_length] at q2
    have hq : qs = ps := by
      have key : ∀ {as bs : List Prt}, as.map (·.name) = bs.map (·.name) →
          as.map (fun p => (p.width, p.signed)) = bs.map (fun p => (p.width, p.signed)) → as = bs := by
        intro as
        induction as with
        | nil => intro bs h _; cases bs <;> simp at h ⊢
        | cons a as ih =>
          intro bs h h'
          cases bs with
          | nil => simp at h
          | cons b bs =>
            simp only [List.map_cons, List.cons.injEq, Prod.mk.injEq] at h h'
            obtain ⟨n1, w1, s1⟩ := a
            obtain ⟨n2, w2, s2⟩ := b
            obtain ⟨h1, h2⟩ := h
            obtain ⟨⟨h3, h4⟩, h5⟩ := h'
            simp only at h1 h3 h4
            rw [h1, h3, h4, ih h2 h5]
      exact key (q1.trans h1.symm) (q2.trans h2.symm)
    subst hq
    obtain ⟨m, hm⟩ := mapping_ok (ns := l) (as := c.args) (by omega)
    obtain ⟨-, m1, m2⟩ := mapping_spec hm
    rw [← hlen, List.take_length] at m1
    refine ⟨⟨c.gen, fnName c, m, code.ret⟩, ?_⟩
    rw [hcall, hqs]
    simp only [hcode]
    refine connect_iff.2 ⟨m, hm, check_iff.2 fun p hp' => ?_, hr, rfl⟩
    obtain ⟨i, hi', rfl⟩ := List.mem_iff_getElem.1 hp'
    have hi' : i < qs.length := hi'
    have hlq : qs.length = c.args.length := by simpa using congrArg List.length q2
    have hlm : m.length = c.args.length := by simpa using congrArg List.length m2
    have e1 : qs[i].name = l[i]'(by omega) := by
      have : (qs.map (·.name))[i]'(by simpa using hi') = l[i]'(by omega) := by simp only [q1]
      simpa using this
    have e2 : m[i]'(by omega) = (l[i]'(by omega), c.args[i]'(by omega)) := by
      have a1 : (m.map (·.1))[i]'(by simp; omega) = l[i]'(by omega) := by simp only [m1]
      have a2 : (m.map (·.2))[i]'(by simp; omega) = c.args[i]'(by omega) := by simp only [m2]
      rw [List.getElem_map] at a1 a2
      exact Prod.ext a1 a2
    have e3 : (qs.map (fun p => (p.width, p.signed)))[i]'(by simpa using hi') =
        (c.args.map (fun a => (a.width, a.signed)))[i]'(by simp; omega) := by simp only [q2]
    rw [List.getElem_map, List.getElem_map] at e3
    obtain ⟨w, sg⟩ := Prod.mk.inj e3
    refine ⟨c.args[i]'(by omega), at_of_mem (by rw [m1]; exact hn) ?_, w.symm, sg.symm⟩
    rw [e1, ← e2]
    exact List.getElem_mem _

/-- Partial: an accepted call gives the same result again, however many calls come in between, if none of them is of a
function of this name in another generator with the name of this one. -/
theorem again_partial {tr : Tr} {s : St} {c : Call} {e : Expr} (h : (call tr s c).2 = .ok e) (os : List Op)
    (ho : ∀ o ∈ os, ∃ c', o = .call c' ∧ ((s.gens c'.gen).name = (s.gens c.gen).name →
      c'.as_.getD c'.fn.name = c.as_.getD c.fn.name → c'.gen = c.gen)) :
    (call tr (run tr (call tr s c).1 os) c).2 = .ok e := by
  have hfirst : ∃ d ord, ((call tr s c).1.gens c.gen).funcs (fnName c) = some d ∧
      (call tr s c).1.cache ((s.gens c.gen).name, fnName c) = some ord ∧
      connect d c.gen (fnName c) ord c.args = .ok e := by
    unfold call at h ⊢
    cases hf : (s.gens c.gen).funcs (fnName c) with
    | some d =>
      rw [hf] at h
      simp only at h ⊢
      split at h
      · cases h
      · next ord hc =>
        rw [hc]
        exact ⟨d, ord, hf, rfl, h⟩
    | none =>
      rw [hf] at h
      simp only at h ⊢
      split at h
      · cases h
      · split at h
        · cases h
        · split at h
          · cases h
          · next hself =>
            split at h
            · cases h
            · cases h
            · next code hcode =>
              rw [if_neg hself]
              exact ⟨_, _, by simp [setCache, setFn], by simp [setCache], h⟩
  obtain ⟨d, ord, hd, hcache, hconn⟩ := hfirst
  have names := (call_frame tr s c).1
  have main : ∀ (os : List Op) (t : St),
      (∀ o ∈ os, ∃ c', o = .call c' ∧ ((s.gens c'.gen).name = (s.gens c.gen).name →
        c'.as_.getD c'.fn.name = c.as_.getD c.fn.name → c'.gen = c.gen)) →
      (∀ k, (t.gens k).name = (s.gens k).name) → (t.gens c.gen).funcs (fnName c) = some d →
      t.cache ((s.gens c.gen).name, fnName c) = some ord →
      (call tr (run tr t os) c).2 = .ok e := by
    intro os
    induction os with
    | nil =>
      intro t _ hn hd hc
      unfold run call
      rw [hd, hn]
      simp only [hc]
      exact hconn
    | cons o os ih =>
      intro t ho hn hd hc
      obtain ⟨c', rfl, hc'⟩ := ho o (by simp)
      obtain ⟨f1, f2, f3⟩ := call_frame tr t c'
      refine ih _ (fun o h => ho o (List.mem_cons_of_mem _ h)) (fun k => (f1 k).trans (hn k)) (f2 _ _ _ hd) ?_
      rcases call_cache tr t c' ((s.gens c.gen).name, fnName c) with he | ⟨hk, hnone, _⟩
      · exact he.trans hc
      · rw [hn] at hk
        obtain ⟨e1, e2⟩ := Prod.mk.inj hk
        have e3 := hc' e1.symm e2.symm
        rw [e3, ← e2, hd] at hnone
        cases hnone
  exact main os _ ho names hd hcache

/-- If the first call of a method has too few arguments, or its body is refused, no later call of that function in that
generator is accepted, with whatever arguments. -/
theorem stuck {tr : Tr} {names : Nat → Name} {c c' : Call} {os : List Op} {l : List Name}
    (hi : Function.Injective names) (hl : Formals c.fn l) (hself : "self" ∉ l)
    (hbad : c.args.length < l.length ∨ ∀ ps code, tr c.fn c.gen ps c.env ≠ .ok code)
    (ho : OnlyCalls os) (hg : c'.gen = c.gen) (hf : c'.as_.getD c'.fn.name = c.as_.getD c.fn.name) (e : Expr) :
    (call tr (run tr (start names) (.call c :: os)) c').2 ≠ .ok e := by
  have hord := order_method hl hself
  have hp : c.fn.params = "self" :: l := hl
  have hd : ∃ d, ((call tr (start names) c).1.gens c.gen).funcs (fnName c) = some d ∧ d.code = none := by
    unfold call
    simp only [start, hp, hord]
    cases hps : ports l c.args with
    | none => exact ⟨⟨c.fn.task, [], none⟩, by simp [setFn], rfl⟩
    | some ps =>
      have h1 := (ports_spec hps).1
      have hbad : ∀ ps code, tr c.fn c.gen ps c.env ≠ .ok code := by
        rcases hbad with hb | hb
        · omega
        · exact hb
      simp only [ne_eq, not_true, if_false]
      cases hcode : tr c.fn c.gen ps c.env with
      | throw e => exact ⟨⟨c.fn.task, ps, none⟩, by simp [setFn], rfl⟩
      | ub => exact ⟨⟨c.fn.task, ps, none⟩, by simp [setFn], rfl⟩
      | ok code => exact absurd hcode (hbad _ _)
  obtain ⟨d, hd, hcode⟩ := hd
  have keep : ∀ (os : List Op) (t : St), OnlyCalls os → (t.gens c.gen).funcs (fnName c) = some d →
      ((run tr t os).gens c.gen).funcs (fnName c) = some d := by
    intro os
    induction os with
    | nil => intro t _ h; exact h
    | cons o os ih =>
      intro t ho h
      refine ih _ (fun o h => ho o (List.mem_cons_of_mem _ h)) ?_
      rcases ho o (by simp) with rfl | ⟨c1, rfl⟩
      · exact h
      · exact (call_frame tr t c1).2.1 _ _ _ h
  have hfin := keep os _ ho hd
  have inv := inv_run (tr := tr) hi (.call c :: os) [] _ (inv_start tr names) (by
    intro o h
    rcases List.mem_cons.1 h with rfl | h
    · exact Or.inr ⟨c, rfl⟩
    · exact ho o h)
  have hf' : fnName c' = fnName c := hf
  intro h
  unfold call at h
  have e0 : run tr (start names) (.call c :: os) = run tr (call tr (start names) c).1 os := rfl
  rw [hg, hf', e0, hfin] at h
  rw [e0] at inv
  simp only at h
  split at h
  · cases h
  · next ord hc =>
    rw [inv.nm] at hc
    obtain ⟨_, _, _, _, _, ps, code, _, _, hd'⟩ := inv.cache _ _ _ hc
    rw [hfin] at hd'
    cases hd'
    cases hcode

/-! ### Cases -/

/-- A translation that writes down the method and the environment. -/
def trW : Tr := fun F _ _ env => .ok ⟨[F.text, env], some (1, false)⟩

def fAB : PyFn := ⟨"f", ["self", "a", "b"], false, 0⟩
def fBA : PyFn := ⟨"f", ["self", "b", "a"], false, 1⟩
def x1 : Arg := ⟨1, 4, false⟩
def x2 : Arg := ⟨2, 4, false⟩
def c1 : Call := ⟨0, fAB, none, 0, [x1, x2]⟩
def c2 : Call := ⟨1, fBA, none, 0, [x1, x2]⟩
def same : Nat → Name := fun _ => "m"
def apart : Nat → Name := fun k => String.ofList (List.replicate k 'm')

theorem apart_inj : Function.Injective apart := by
  intro a b h
  have := congrArg String.toList h
  simp only [apart, String.toList_ofList] at this
  simpa using congrArg List.length this

theorem method_AB : Method fAB := ⟨["a", "b"], rfl, by decide, by decide⟩

def e1 : Expr := ⟨0, "f", [("a", x1), ("b", x2)], some (1, false)⟩
def e2 : Expr := ⟨0, "f", [("b", x1), ("a", x2)], some (1, false)⟩

theorem first_ok (names : Nat → Name) : (call trW (start names) c1).2 = .ok e1 := rfl

/-- Two generators with one name, each with a method `f`: after the second one is called, the arguments of the first
one are crossed. -/
theorem not_PositionClaim : ¬ PositionClaim := by
  intro h
  have hc : (call trW (run trW (start same) [.call c1, .call c2]) c1).2 = .ok e2 := by decide +kernel
  obtain ⟨l, hl, _, h2, _⟩ := h trW same _ c1 e2 method_AB hc
  have hl' : fAB.params = "self" :: l := hl
  have : l = ["a", "b"] := by simpa [fAB] using hl'.symm
  subst this
  revert h2
  decide

def c3 : Call := { c1 with env := 1 }

/-- The keywords of a later call are ignored: its body is that of the first call. -/
theorem not_TranslatedClaim : ¬ TranslatedClaim := by
  intro h
  have hc : (call trW (run trW (start apart) [.call c1]) c3).2 = .ok e1 := by decide +kernel
  obtain ⟨d, code, ps, hd, _, _, hcode, htr, _⟩ :=
    h trW apart [.call c1] c3 e1 apart_inj (by intro o ho; simp at ho; exact ⟨_, ho⟩) method_AB hc
  have hd' : (((call trW (run trW (start apart) [.call c1]) c3).1.gens 0).funcs "f").bind (·.code) =
      some ⟨[0, 0], some (1, false)⟩ := by decide +kernel
  have hd0 : ((call trW (run trW (start apart) [.call c1]) c3).1.gens 0).funcs "f" = some d := hd
  rw [hd0] at hd'
  simp only [Option.bind_some, hcode, Option.some.injEq] at hd'
  subst hd'
  have htr' : (Res.ok ⟨[0, 1], some (1, false)⟩ : Res Code) = .ok ⟨[0, 0], some (1, false)⟩ := htr
  simp at htr'

/-- After the generator is renamed, its functions cannot be called any more. -/
theorem not_AgainClaim : ¬ AgainClaim := by
  intro h
  obtain ⟨e', he⟩ := h trW same [] [.rename 0 "n"] c1 e1 method_AB (first_ok same)
  have : (call trW (run trW (run trW (start same) ([] ++ [.call c1])) [.rename 0 "n"]) c1).2 = .throw .user := by
    decide +kernel
  rw [this] at he
  cases he

def c4 : Call := { c1 with args := [x1] }

/-- A call with too few arguments leaves a function behind that cannot be called. -/
theorem not_RetryClaim : ¬ RetryClaim := by
  intro h
  obtain ⟨e', he⟩ := h trW same c1 c4 e1 method_AB rfl rfl rfl rfl (fun e he => by
    have : (call trW (start same) c4).2 = .throw .user := by decide +kernel
    rw [this] at he; cases he) (first_ok same)
  have : (call trW (call trW (start same) c4).1 c1).2 = .throw .user := by decide +kernel
  rw [this] at he
  cases he

/-- The hypotheses of `call_partial` and `again_partial`: a method is called twice, and another one under another name. -/
example : OnlyCalls [.call c1, .call { c2 with as_ := some "g" }] ∧
    Consistent ([.call c1, .call { c2 with as_ := some "g" }] ++ [.call c1]) ∧
    (call trW (run trW (start apart) [.call c1, .call { c2 with as_ := some "g" }]) c1).2 = .ok e1 := by
  refine ⟨?_, ?_, by decide +kernel⟩
  · intro o ho; simp at ho; rcases ho with rfl | rfl <;> exact Or.inr ⟨_, rfl⟩
  · intro c c' hc hc' hg hf
    simp at hc hc'
    rcases hc with rfl | rfl | rfl <;> rcases hc' with rfl | rfl | rfl <;> simp_all [c1, c2]

/-- The hypotheses of `stuck`. -/
example : c4.args.length < ["a", "b"].length ∧ Formals c4.fn ["a", "b"] := ⟨by decide, rfl⟩

/-- The hypotheses of `first_call`. -/
example : Formals c1.fn ["a", "b"] ∧ ((start same).gens c1.gen).funcs (c1.as_.getD c1.fn.name) = none := ⟨rfl, rfl⟩

end Kratos.FuncCall
