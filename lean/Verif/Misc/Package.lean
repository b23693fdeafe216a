import Verif.Base
import Verif.Util.Map

/-!
# C105: writing a design as a package of files

Model of `generate_verilog_pkg` (src/codegen.cc:1454-1523), `UniqueGeneratorVisitor`
(src/codegen.cc:1353-1367), the level-by-level parallel visit `IRVisitor::visit_generator_root_p`
(src/ir.cc:102-121), `output_pkg_debug_info` (src/codegen.cc:1423-1452) and `fs::join`
(src/util.cc:512-521).

The texts of the modules, of the debug information and of the header are given (`src`, `dbg`,
`header`).  Two threads that use the `std::map` of the visitor at once, one of them inserting, are
a data race: undefined behaviour.  A file is opened with truncation and then written; a crash can
fall between any two operations and inside a write.  The directory exists (kratos/passes.py:150-152
creates it) and files can be opened.
-/

namespace Kratos.Package
open Kratos (Map)

abbrev Str := List Char

/-! ## Model -/

/-- What the function reads of a generator. -/
structure Gen where
  id : Nat
  name : Str
  external : Bool
  debug : Bool
  /-- `SystemVerilogCodeGen(g, options).str()` -/
  src : Str
  /-- the text of `output_pkg_debug_info` -/
  dbg : Str
  deriving DecidableEq, Repr

/-! ### The visit of all generators -/

/-- What happens in a level: a task begins or ends the visit of a generator. -/
inductive Ev where
  | start (g : Gen)
  | stop (g : Gen)
  deriving Repr

/-- The visitor: the running visits, with the fact that they insert, and the map. -/
structure Vis where
  active : List (Gen × Bool)
  map : Map Str Gen

/-- `UniqueGeneratorVisitor::visit` (src/codegen.cc:1358-1365): whether it inserts. -/
def inserts (m : Map Str Gen) (g : Gen) : Bool := !Map.has m g.name && !g.external

/-- One event.  A visit inserts when it begins; until it ends, another visit is a data race if
either inserts. -/
def visStep (s : Vis) : Ev → Res Vis
  | .start g =>
      let w := inserts s.map g
      if (w && !s.active.isEmpty) || s.active.any (·.2) then .ub
      else .ok ⟨(g, w) :: s.active, if w then Map.emplace s.map g.name g else s.map⟩
  | .stop g => .ok { s with active := s.active.filter fun e => decide (e.1.id ≠ g.id) }

def visRun (s : Vis) : List Ev → Res Vis
  | [] => .ok s
  | e :: es => (visStep s e).bind fun s' => visRun s' es

/-- The schedules of a level on `cpus` threads (src/ir.cc:112-119): tasks still to begin, tasks
running. -/
inductive Sched (cpus : Nat) : List Gen → List Gen → List Ev → Prop
  | done : Sched cpus [] [] []
  | start {todo run g es} : g ∈ todo → run.length < cpus → Sched cpus (todo.erase g) (g :: run) es →
      Sched cpus todo run (.start g :: es)
  | stop {todo run g es} : g ∈ run → Sched cpus todo (run.erase g) es → Sched cpus todo run (.stop g :: es)

/-- The schedules of the whole visit: one level after the other (src/ir.cc:107-120). -/
inductive Visits (cpus : Nat) : List (List Gen) → List Ev → Prop
  | nil : Visits cpus [] []
  | level {l ls es es'} : Sched cpus l [] es → Visits cpus ls es' → Visits cpus (l :: ls) (es ++ es')

/-! ### Files -/

/-- A file: its content and the time of the last change. -/
abbrev File := Str × Nat

structure St where
  fs : Str → Option File
  clock : Nat
  /-- `Generator::verilog_fn` -/
  fn : Nat → Str

inductive Op where
  /-- open with `std::ios::trunc` -/
  | trunc (p : Str)
  /-- write -/
  | app (p : Str) (s : Str)
  /-- `gen->verilog_fn = path` -/
  | mark (id : Nat) (p : Str)
  deriving DecidableEq, Repr

def set {V : Type} (f : Str → V) (p : Str) (v : V) : Str → V := fun q => if q = p then v else f q

def apply (s : St) : Op → St
  | .trunc p => { s with fs := set s.fs p (some ([], s.clock + 1)), clock := s.clock + 1 }
  | .app p t => { s with fs := set s.fs p (match s.fs p with
        | some (c, _) => some (c ++ t, s.clock + 1)
        | none => some (t, s.clock + 1)), clock := s.clock + 1 }
  | .mark i p => { s with fn := fun j => if j = i then p else s.fn j }

def applyAll (s : St) (os : List Op) : St := os.foldl apply s

/-- `fs::join` (src/util.cc:512-521) with a relative second path. -/
def join (dir f : Str) : Str :=
  if dir = [] ∨ dir.getLast? = some '/' then dir ++ f else dir ++ '/' :: f

def svPath (dir n : Str) : Str := join dir (n ++ ['.', 's', 'v'])
def dbgPath (dir n : Str) : Str := join dir (n ++ ['.', 's', 'v', '.', 'd', 'e', 'b', 'u', 'g'])
def headPath (dir n : Str) : Str := join dir (n ++ ['.', 's', 'v', 'h'])

/-- The comparison with the file of the last run (src/codegen.cc:1484-1491, 1512-1520). -/
def same (s : St) (p t : Str) : Bool :=
  match s.fs p with
  | some (c, _) => decide (c = t)
  | none => false

/-- One module (src/codegen.cc:1482-1501); `gens` are the generators of the context. -/
def modOps (gens : List Gen) (dir : Str) (s : St) (n : Str) (t : Str) : List Op :=
  let p := svPath dir n
  if same s p t then []
  else [.trunc p, .app p t] ++ (gens.filter fun g => decide (g.name = n) && g.debug).map fun g => .mark g.id p

/-- The loop over the modules. -/
def modsOps (gens : List Gen) (dir : Str) : St → Map Str Gen → List Op
  | _, [] => []
  | s, (n, g) :: r =>
      let o := modOps gens dir s n g.src
      o ++ modsOps gens dir (applyAll s o) r

/-- `output_pkg_debug_info`: always written. -/
def dbgOps (dir : Str) (m : Map Str Gen) : List Op :=
  m.flatMap fun e => [.trunc (dbgPath dir e.1), .app (dbgPath dir e.1) e.2.dbg]

/-- The header (src/codegen.cc:1508-1522). -/
def headOps (dir pkg header : Str) (s : St) : List Op :=
  let p := headPath dir pkg
  if same s p header then [] else [.trunc p, .app p header]

structure Options where
  dir : Str
  pkg : Str
  debugInfo : Bool

/-- The operations of `generate_verilog_pkg` on the file system, after the visit. -/
def writeOps (gens : List Gen) (o : Options) (header : Str) (m : Map Str Gen) (s : St) : List Op :=
  let a := modsOps gens o.dir s m
  let b := if o.debugInfo then dbgOps o.dir m else []
  a ++ b ++ headOps o.dir o.pkg header (applyAll s (a ++ b))

/-- `generate_verilog_pkg` (src/codegen.cc:1454-1523) under a schedule of the visit. -/
def generate (gens : List Gen) (top : Str) (o : Options) (header : Str) (evs : List Ev) (s : St) : Res (List Op) :=
  if o.pkg = top then .throw .user
  else (visRun ⟨[], []⟩ evs).bind fun v => .ok (writeOps gens o header v.map s)

/-! ## Specification -/

/-- `p` is the path of the file `f` in the directory `dir`. -/
def InDir (dir f p : Str) : Prop :=
  (dir = [] ∧ p = f) ∨ (∃ d, dir = d ++ ['/'] ∧ p = d ++ ['/'] ++ f) ∨
  (dir ≠ [] ∧ (∀ d, dir ≠ d ++ ['/']) ∧ p = dir ++ ['/'] ++ f)

/-- Where the design is, and what should be in which file. -/
def Wanted (levels : List (List Gen)) (o : Options) (header : Str) (p t : Str) : Prop :=
  (∃ l g, l ∈ levels ∧ g ∈ l ∧ g.external = false ∧ InDir o.dir (g.name ++ ['.', 's', 'v']) p ∧ t = g.src) ∨
  (o.debugInfo = true ∧ ∃ l g, l ∈ levels ∧ g ∈ l ∧ g.external = false ∧
    InDir o.dir (g.name ++ ['.', 's', 'v', '.', 'd', 'e', 'b', 'u', 'g']) p ∧ t = g.dbg) ∨
  (InDir o.dir (o.pkg ++ ['.', 's', 'v', 'h']) p ∧ t = header)

/-- The design has been uniquified: generators of one name have the same texts. -/
def Uniquified (levels : List (List Gen)) : Prop :=
  ∀ l g l' g', l ∈ levels → g ∈ l → l' ∈ levels → g' ∈ l' → g.external = false → g'.external = false →
    g.name = g'.name → g.src = g'.src ∧ g.dbg = g'.dbg

/-- Every file has the content it should have. -/
def Complete (levels : List (List Gen)) (o : Options) (header : Str) (s : St) : Prop :=
  ∀ p t, Wanted levels o header p t → ∃ k, s.fs p = some (t, k)

/-- Nothing else is touched, and neither is a file that was right (but for the debug
information). -/
def Frugal (levels : List (List Gen)) (o : Options) (header : Str) (s s' : St) : Prop :=
  (∀ p, (∀ t, ¬ Wanted levels o header p t) → s'.fs p = s.fs p) ∧
  ∀ p t k, Wanted levels o header p t → s.fs p = some (t, k) →
    (∀ l g, l ∈ levels → g ∈ l → ¬ InDir o.dir (g.name ++ ['.', 's', 'v', '.', 'd', 'e', 'b', 'u', 'g']) p) →
    s'.fs p = some (t, k)

/-- The states in which the process can die. -/
def CrashState (s : St) (ops : List Op) (t : St) : Prop :=
  (∃ pre post, ops = pre ++ post ∧ t = applyAll s pre) ∨
  ∃ pre p x y post, ops = pre ++ .app p (x ++ y) :: post ∧ t = apply (applyAll s pre) (.app p x)

/-- What a crash leaves: old files, and beginnings of new ones. -/
def Partway (levels : List (List Gen)) (o : Options) (header : Str) (s t : St) : Prop :=
  ∀ p, t.fs p = s.fs p ∨ ∃ w x k, Wanted levels o header p w ∧ x <+: w ∧ t.fs p = some (x, k)

/-- Generators that carry debug information know their file. -/
def KnowFile (levels : List (List Gen)) (o : Options) (s : St) : Prop :=
  ∀ l g, l ∈ levels → g ∈ l → g.external = false → g.debug = true →
    InDir o.dir (g.name ++ ['.', 's', 'v']) (s.fn g.id)

/-- C105 in full: whatever is in the directory (after any history of runs and crashes), under
every schedule the function completes, all files have the current content, the others and those
that were right are untouched, a crash leaves old files and beginnings of new ones, and the
generators know their files. -/
def PackageClaim : Prop :=
  ∀ cpus levels gens top o header evs s, Uniquified levels → Visits cpus levels evs → o.pkg ≠ top →
    (∀ l g, l ∈ levels → g ∈ l → g ∈ gens) → (gens.map (·.id)).Nodup →
    ∃ ops, generate gens top o header evs s = .ok ops ∧
      Complete levels o header (applyAll s ops) ∧ Frugal levels o header s (applyAll s ops) ∧
      (∀ t, CrashState s ops t → Partway levels o header s t) ∧ KnowFile levels o (applyAll s ops)

/-! ## The visit -/

/-- The schedules without concurrency: one processor, or one generator in each level. -/
def Alone (cpus : Nat) (levels : List (List Gen)) : Prop := cpus ≤ 1 ∨ ∀ l ∈ levels, l.length ≤ 1

/-- What the map should be after visiting the generators in `P`. -/
structure MapOk (P : Gen → Prop) (m : Map Str Gen) : Prop where
  nodup : (Map.keys m).Nodup
  sound : ∀ n g, (n, g) ∈ m → P g ∧ g.external = false ∧ g.name = n
  full : ∀ g, P g → g.external = false → g.name ∈ Map.keys m

theorem MapOk.congr {P Q : Gen → Prop} {m : Map Str Gen} (h : MapOk P m) (e : ∀ g, P g ↔ Q g) : MapOk Q m :=
  ⟨h.nodup, fun n g hm => ⟨(e g).1 (h.sound n g hm).1, (h.sound n g hm).2⟩, fun g hq => h.full g ((e g).2 hq)⟩

theorem mapOk_visit {P : Gen → Prop} {m : Map Str Gen} (h : MapOk P m) (g : Gen) :
    MapOk (fun x => x = g ∨ P x) (if inserts m g then Map.emplace m g.name g else m) := by
  have hk : Map.has m g.name = true ↔ g.name ∈ Map.keys m := Map.has_iff
  by_cases hi : inserts m g = true
  · rw [if_pos hi]
    simp only [inserts, Bool.and_eq_true, Bool.not_eq_true'] at hi
    refine ⟨Map.nodup_emplace h.nodup _ _, ?_, ?_⟩
    · intro n x hm
      rcases Map.mem_emplace hm with hm | ⟨he, _⟩
      · exact ⟨Or.inr (h.sound n x hm).1, (h.sound n x hm).2⟩
      · cases he; exact ⟨Or.inl rfl, hi.2, rfl⟩
    · intro x hx hext
      have : ∃ v, Map.find (Map.emplace m g.name g) x.name = some v := by
        rw [Map.find_emplace]
        by_cases hxn : x.name = g.name
        · rw [if_pos hxn]; exact ⟨_, rfl⟩
        · rw [if_neg hxn]
          rcases hx with rfl | hx
          · exact absurd rfl hxn
          · obtain ⟨v, hv⟩ := Map.mem_keys.1 (h.full x hx hext)
            exact ⟨v, Map.find_of_mem h.nodup hv⟩
      obtain ⟨v, hv⟩ := this
      exact Map.mem_keys.2 ⟨v, Map.mem_of_find hv⟩
  · rw [if_neg hi]
    refine ⟨h.nodup, fun n x hm => ⟨Or.inr (h.sound n x hm).1, (h.sound n x hm).2⟩, ?_⟩
    intro x hx hext
    rcases hx with rfl | hx
    · rw [← hk]
      simp only [inserts, hext, Bool.not_false, Bool.and_true, Bool.not_eq_true', Bool.not_eq_false] at hi
      simpa using hi
    · exact h.full x hx hext

theorem visRun_append (a b : List Ev) : ∀ s, visRun s (a ++ b) = (visRun s a).bind fun s' => visRun s' b := by
  induction a with
  | nil => intro s; simp [visRun]
  | cons e a ih =>
    intro s
    simp only [List.cons_append, visRun]
    cases visStep s e with
    | ok s' => simp [ih]
    | throw e => simp
    | ub => simp

theorem sched_alone {cpus : Nat} {todo run : List Gen} {es : List Ev} (h : Sched cpus todo run es) :
    ∀ (s : Vis) (P : Gen → Prop), run.length ≤ 1 → (cpus ≤ 1 ∨ todo.length + run.length ≤ 1) →
      s.active.map (·.1) = run → MapOk P s.map →
      ∃ s', visRun s es = .ok s' ∧ s'.active = [] ∧ MapOk (fun g => g ∈ todo ∨ P g) s'.map := by
  induction h with
  | done =>
    intro s P _ _ ha hm
    exact ⟨s, rfl, by simpa using ha, hm.congr (by simp)⟩
  | @start todo run g es hg hlt _ ih =>
    intro s P _ hal ha hm
    have hrun : run = [] := by
      have hp := List.length_pos_of_mem hg
      cases run with
      | nil => rfl
      | cons a r => simp only [List.length_cons] at hlt hal; omega
    subst hrun
    have ha' : s.active = [] := by simpa using ha
    obtain ⟨s', h1, h2, h3⟩ := ih ⟨(g, inserts s.map g) :: s.active,
        if inserts s.map g then Map.emplace s.map g.name g else s.map⟩ (fun x => x = g ∨ P x)
        (by simp) (by
          rcases hal with h | h
          · exact Or.inl h
          · right
            have hp := List.length_pos_of_mem hg
            rw [List.length_erase_of_mem hg]; simp only [List.length_cons, List.length_nil] at h ⊢; omega)
        (by simp [ha']) (mapOk_visit hm g)
    refine ⟨s', ?_, h2, h3.congr ?_⟩
    · simp only [visRun, visStep, ha', List.isEmpty_nil, Bool.not_true, Bool.and_false, List.any_nil,
        Bool.or_self, Bool.false_eq_true, if_false, Res.ok_bind]
      rw [← h1, ha']
    · intro x
      by_cases hx : x = g
      · subst hx; simp [hg]
      · rw [List.mem_erase_of_ne hx]; simp [hx]
  | @stop todo run g es hg _ ih =>
    intro s P hr hal ha hm
    have hrun : run = [g] := by
      cases run with
      | nil => cases hg
      | cons a r =>
        cases r with
        | nil => rw [List.mem_singleton] at hg; rw [hg]
        | cons b r => simp at hr
    subst hrun
    obtain ⟨s', h1, h2, h3⟩ := ih { s with active := s.active.filter fun e => decide (e.1.id ≠ g.id) } P
        (by simp) (by
          rcases hal with h | h
          · exact Or.inl h
          · right; simp only [List.length_cons, List.length_nil, List.erase_cons_head] at h ⊢; omega)
        (by
          cases hs : s.active with
          | nil => simp [hs] at ha
          | cons e r =>
            rw [hs] at ha
            simp only [List.map_cons, List.cons.injEq, List.map_eq_nil_iff] at ha
            obtain ⟨he, hr⟩ := ha
            subst hr
            simp [he]) hm
    exact ⟨s', by simpa only [visRun, visStep, Res.ok_bind] using h1, h2, h3⟩

theorem visits_alone {cpus : Nat} {levels : List (List Gen)} {es : List Ev} (h : Visits cpus levels es) :
    Alone cpus levels → ∀ (s : Vis) (P : Gen → Prop), s.active = [] → MapOk P s.map →
      ∃ s', visRun s es = .ok s' ∧ MapOk (fun g => (∃ l ∈ levels, g ∈ l) ∨ P g) s'.map := by
  induction h with
  | nil => intro _ s P _ hm; exact ⟨s, rfl, hm.congr (by simp)⟩
  | @level l ls es es' hs _ ih =>
    intro hal s P ha hm
    obtain ⟨s1, h1, h2, h3⟩ := sched_alone hs s P (by simp) (by
      rcases hal with h | h
      · exact Or.inl h
      · right; simpa using h l (by simp)) (by simp [ha]) hm
    obtain ⟨s2, h4, h5⟩ := ih (by
      rcases hal with h | h
      · exact Or.inl h
      · exact Or.inr fun l hl => h l (by simp [hl])) s1 _ h2 h3
    refine ⟨s2, by rw [visRun_append, h1, Res.ok_bind, h4], h5.congr ?_⟩
    intro g
    simp only [List.mem_cons, exists_eq_or_imp]
    constructor
    · rintro (h | h | h)
      · exact Or.inl (Or.inr h)
      · exact Or.inl (Or.inl h)
      · exact Or.inr h
    · rintro ((h | h) | h)
      · exact Or.inr (Or.inl h)
      · exact Or.inl h
      · exact Or.inr (Or.inr h)

/-! ## The files as jobs -/

structure Job where
  path : Str
  text : Str
  force : Bool
  ids : List Nat

def jobOps (s : St) (j : Job) : List Op :=
  if !j.force && same s j.path j.text then []
  else [.trunc j.path, .app j.path j.text] ++ j.ids.map fun i => .mark i j.path

def jobsOps : St → List Job → List Op
  | _, [] => []
  | s, j :: r => jobOps s j ++ jobsOps (applyAll s (jobOps s j)) r

theorem applyAll_append (s : St) (a b : List Op) : applyAll s (a ++ b) = applyAll (applyAll s a) b := by
  simp [applyAll]

theorem jobsOps_append (a b : List Job) : ∀ s, jobsOps s (a ++ b) = jobsOps s a ++ jobsOps (applyAll s (jobsOps s a)) b := by
  induction a with
  | nil => intro s; simp [jobsOps, applyAll]
  | cons j a ih => intro s; simp [jobsOps, ih, applyAll_append]

def idsOf (gens : List Gen) (n : Str) : List Nat :=
  (gens.filter fun g => decide (g.name = n) && g.debug).map (·.id)

def modJobs (gens : List Gen) (dir : Str) (m : Map Str Gen) : List Job :=
  m.map fun e => ⟨svPath dir e.1, e.2.src, false, idsOf gens e.1⟩

def dbgJobs (dir : Str) (m : Map Str Gen) : List Job :=
  m.map fun e => ⟨dbgPath dir e.1, e.2.dbg, true, []⟩

def allJobs (gens : List Gen) (o : Options) (header : Str) (m : Map Str Gen) : List Job :=
  modJobs gens o.dir m ++ (if o.debugInfo then dbgJobs o.dir m else []) ++ [⟨headPath o.dir o.pkg, header, false, []⟩]

theorem modsOps_jobs (gens : List Gen) (dir : Str) (m : Map Str Gen) :
    ∀ s, modsOps gens dir s m = jobsOps s (modJobs gens dir m) := by
  induction m with
  | nil => intro s; rfl
  | cons e m ih =>
    intro s
    obtain ⟨n, g⟩ := e
    have : modOps gens dir s n g.src = jobOps s ⟨svPath dir n, g.src, false, idsOf gens n⟩ := by
      simp [modOps, jobOps, idsOf, Function.comp_def]
    simp only [modsOps, modJobs, List.map_cons, jobsOps, this]
    rw [ih]; rfl

theorem dbgOps_jobs (dir : Str) (m : Map Str Gen) : ∀ s, dbgOps dir m = jobsOps s (dbgJobs dir m) := by
  induction m with
  | nil => intro s; rfl
  | cons e m ih =>
    intro s
    have := ih (applyAll s (jobOps s ⟨dbgPath dir e.1, e.2.dbg, true, []⟩))
    simp only [dbgOps, dbgJobs] at this ⊢
    simp only [List.flatMap_cons, List.map_cons, jobsOps, this]
    simp [jobOps]

theorem writeOps_jobs (gens : List Gen) (o : Options) (header : Str) (m : Map Str Gen) (s : St) :
    writeOps gens o header m s = jobsOps s (allJobs gens o header m) := by
  have hh : ∀ t, headOps o.dir o.pkg header t = jobsOps t [⟨headPath o.dir o.pkg, header, false, []⟩] := by
    intro t; simp [headOps, jobsOps, jobOps]
  have hd : ∀ t, (if o.debugInfo then dbgOps o.dir m else []) =
      jobsOps t (if o.debugInfo then dbgJobs o.dir m else []) := by
    intro t; cases o.debugInfo
    · rfl
    · exact dbgOps_jobs _ _ _
  simp only [writeOps, allJobs]
  rw [jobsOps_append, jobsOps_append, modsOps_jobs, hh, hd (applyAll s (jobsOps s (modJobs gens o.dir m)))]

theorem marks_fs (p : Str) : ∀ (is : List Nat) (s : St), (applyAll s (is.map fun i => Op.mark i p)).fs = s.fs := by
  intro is
  induction is with
  | nil => intro s; rfl
  | cons i is ih => intro s; simp only [List.map_cons, applyAll, List.foldl_cons] at ih ⊢; rw [ih]; rfl

theorem marks_fn (p : Str) : ∀ (is : List Nat) (s : St) (i : Nat),
    (applyAll s (is.map fun i => Op.mark i p)).fn i = if i ∈ is then p else s.fn i := by
  intro is
  induction is with
  | nil => intro s i; simp [applyAll]
  | cons j is ih =>
    intro s i
    have := ih (apply s (.mark j p)) i
    simp only [List.map_cons, applyAll, List.foldl_cons] at this ⊢
    rw [this]
    simp only [apply, List.mem_cons]
    by_cases h : i ∈ is <;> by_cases h' : i = j <;> simp [h, h']

theorem same_iff (s : St) (p t : Str) : same s p t = true ↔ ∃ k, s.fs p = some (t, k) := by
  unfold same
  cases h : s.fs p with
  | none => simp
  | some f => obtain ⟨c, k⟩ := f; simp

theorem job_fs (s : St) (j : Job) (q : Str) :
    (applyAll s (jobOps s j)).fs q =
      if q = j.path then (if !j.force && same s j.path j.text then s.fs q else some (j.text, s.clock + 2)) else s.fs q := by
  unfold jobOps
  by_cases h : (!j.force && same s j.path j.text) = true
  · rw [if_pos h, if_pos h]; simp [applyAll]
  · rw [if_neg h, if_neg h, applyAll_append, marks_fs]
    simp only [applyAll, List.foldl_cons, List.foldl_nil, apply, set]
    by_cases hq : q = j.path <;> simp [hq]

theorem job_fn (s : St) (j : Job) (i : Nat) :
    (applyAll s (jobOps s j)).fn i =
      if (!j.force && same s j.path j.text) = false ∧ i ∈ j.ids then j.path else s.fn i := by
  unfold jobOps
  by_cases h : (!j.force && same s j.path j.text) = true
  · rw [if_pos h]; simp [applyAll, h]
  · rw [if_neg h, applyAll_append, marks_fn]
    rw [Bool.not_eq_true] at h
    simp [h, applyAll, apply]

theorem jobs_frame : ∀ (js : List Job) (s : St) (q : Str), q ∉ js.map (·.path) →
    (applyAll s (jobsOps s js)).fs q = s.fs q := by
  intro js
  induction js with
  | nil => intro s q _; rfl
  | cons j js ih =>
    intro s q hq
    simp only [List.map_cons, List.mem_cons, not_or] at hq
    simp only [jobsOps, applyAll_append]
    rw [ih _ _ hq.2, job_fs, if_neg hq.1]

theorem jobs_done : ∀ (js : List Job) (s : St), (js.map (·.path)).Nodup → ∀ j ∈ js,
    (∃ k, (applyAll s (jobsOps s js)).fs j.path = some (j.text, k)) ∧
    (j.force = false → ∀ k, s.fs j.path = some (j.text, k) →
      (applyAll s (jobsOps s js)).fs j.path = some (j.text, k)) := by
  intro js
  induction js with
  | nil => intro s _ j hj; cases hj
  | cons i js ih =>
    intro s hn j hj
    simp only [List.map_cons, List.nodup_cons] at hn
    simp only [jobsOps, applyAll_append]
    rcases List.mem_cons.1 hj with rfl | hj
    · rw [jobs_frame _ _ _ hn.1, job_fs, if_pos rfl]
      refine ⟨?_, ?_⟩
      · by_cases h : (!j.force && same s j.path j.text) = true
        · rw [if_pos h]
          rw [Bool.and_eq_true] at h
          exact (same_iff _ _ _).1 h.2
        · rw [if_neg h]; exact ⟨_, rfl⟩
      · intro hf k hk
        rw [if_pos (by rw [hf, (same_iff _ _ _).2 ⟨k, hk⟩]; rfl), hk]
    · have hne : j.path ≠ i.path := fun e => hn.1 (e ▸ List.mem_map_of_mem hj)
      obtain ⟨h1, h2⟩ := ih (applyAll s (jobOps s i)) hn.2 j hj
      refine ⟨h1, fun hf k hk => h2 hf k ?_⟩
      rw [job_fs, if_neg hne, hk]

theorem jobs_fn_frame : ∀ (js : List Job) (s : St) (i : Nat), (∀ j ∈ js, i ∉ j.ids) →
    (applyAll s (jobsOps s js)).fn i = s.fn i := by
  intro js
  induction js with
  | nil => intro s i _; rfl
  | cons j js ih =>
    intro s i h
    simp only [jobsOps, applyAll_append]
    rw [ih _ _ (fun x hx => h x (by simp [hx])), job_fn, if_neg (fun e => h j (by simp) e.2)]

theorem jobs_fn : ∀ (js : List Job) (s : St) (i : Nat), (js.map (·.path)).Nodup → ∀ j ∈ js, i ∈ j.ids →
    (∀ x ∈ js, i ∈ x.ids → x = j) → (∀ k, s.fs j.path ≠ some (j.text, k)) →
    (applyAll s (jobsOps s js)).fn i = j.path := by
  intro js
  induction js with
  | nil => intro s i _ j hj; cases hj
  | cons a js ih =>
    intro s i hn j hj hi hu hs
    simp only [List.map_cons, List.nodup_cons] at hn
    simp only [jobsOps, applyAll_append]
    rcases List.mem_cons.1 hj with rfl | hj
    · rw [jobs_fn_frame, job_fn, if_pos]
      · refine ⟨?_, hi⟩
        cases h : same s j.path j.text with
        | false => simp
        | true => obtain ⟨k, hk⟩ := (same_iff _ _ _).1 h; exact absurd hk (hs k)
      · intro x hx hix
        have := hu x (by simp [hx]) hix
        subst this
        exact hn.1 (List.mem_map_of_mem hx)
    · have hne : j.path ≠ a.path := fun e => hn.1 (e ▸ List.mem_map_of_mem hj)
      apply ih _ _ hn.2 j hj hi (fun x hx => hu x (by simp [hx]))
      intro k
      rw [job_fs, if_neg hne]
      exact hs k

/-! ## Crashes -/

theorem crash_nil {s t : St} (h : CrashState s [] t) : t = s := by
  rcases h with ⟨pre, post, h, ht⟩ | ⟨pre, p, x, y, post, h, _⟩
  · have := List.append_eq_nil_iff.1 h.symm
    rw [ht, this.1]; rfl
  · simp at h

theorem crash_cons {s t : St} {o : Op} {os : List Op} (h : CrashState s (o :: os) t) :
    t = s ∨ (∃ p x y, o = .app p (x ++ y) ∧ t = apply s (.app p x)) ∨ CrashState (apply s o) os t := by
  rcases h with ⟨pre, post, h, ht⟩ | ⟨pre, p, x, y, post, h, ht⟩
  · cases pre with
    | nil => left; rw [ht]; rfl
    | cons a pre =>
      simp only [List.cons_append, List.cons.injEq] at h
      right; right; left
      exact ⟨pre, post, h.2, by rw [ht, ← h.1]; rfl⟩
  · cases pre with
    | nil =>
      simp only [List.nil_append, List.cons.injEq] at h
      right; left
      exact ⟨p, x, y, h.1, ht⟩
    | cons a pre =>
      simp only [List.cons_append, List.cons.injEq] at h
      right; right; right
      exact ⟨pre, p, x, y, post, h.2, by rw [ht, ← h.1]; rfl⟩

theorem crash_cons' {s t : St} {o : Op} {os : List Op} (h : CrashState (apply s o) os t) : CrashState s (o :: os) t := by
  rcases h with ⟨pre, post, h, ht⟩ | ⟨pre, p, x, y, post, h, ht⟩
  · exact Or.inl ⟨o :: pre, post, by rw [h]; rfl, ht⟩
  · exact Or.inr ⟨o :: pre, p, x, y, post, by rw [h]; rfl, ht⟩

theorem crash_append {t : St} {b : List Op} : ∀ (a : List Op) (s : St), CrashState s (a ++ b) t →
    CrashState s a t ∨ CrashState (applyAll s a) b t := by
  intro a
  induction a with
  | nil => intro s h; exact Or.inr h
  | cons o a ih =>
    intro s h
    rcases crash_cons h with rfl | ⟨p, x, y, rfl, rfl⟩ | h
    · exact Or.inl (Or.inl ⟨[], o :: a, rfl, rfl⟩)
    · exact Or.inl (Or.inr ⟨[], p, x, y, a, rfl, rfl⟩)
    · rcases ih _ h with h | h
      · exact Or.inl (crash_cons' h)
      · exact Or.inr h

theorem crash_marks (p : Str) : ∀ (is : List Nat) (s t : St), CrashState s (is.map fun i => Op.mark i p) t → t.fs = s.fs := by
  intro is
  induction is with
  | nil => intro s t h; rw [crash_nil h]
  | cons i is ih =>
    intro s t h
    rcases crash_cons h with rfl | ⟨p', x, y, h, _⟩ | h
    · rfl
    · cases h
    · rw [ih _ _ h]; rfl

theorem crash_job {s t : St} {j : Job} (h : CrashState s (jobOps s j) t) (q : Str) :
    t.fs q = s.fs q ∨ (q = j.path ∧ ∃ x k, x <+: j.text ∧ t.fs q = some (x, k)) := by
  unfold jobOps at h
  by_cases hc : (!j.force && same s j.path j.text) = true
  · rw [if_pos hc] at h; left; rw [crash_nil h]
  · rw [if_neg hc] at h
    by_cases hq : q = j.path
    · subst hq
      rcases crash_cons h with rfl | ⟨p', x, y, h, _⟩ | h
      · exact Or.inl rfl
      · cases h
      rcases crash_cons h with rfl | ⟨p', x, y, ho, rfl⟩ | h
      · exact Or.inr ⟨rfl, [], s.clock + 1, List.nil_prefix, by simp [apply, set]⟩
      · simp only [Op.app.injEq] at ho
        obtain ⟨rfl, ho⟩ := ho
        exact Or.inr ⟨rfl, x, s.clock + 2, ⟨y, ho.symm⟩, by simp [apply, set]⟩
      · refine Or.inr ⟨rfl, j.text, s.clock + 2, List.prefix_rfl, ?_⟩
        rw [crash_marks _ _ _ _ h]; simp [apply, set]
    · left
      rcases crash_cons h with rfl | ⟨p', x, y, h, _⟩ | h
      · rfl
      · cases h
      rcases crash_cons h with rfl | ⟨p', x, y, ho, rfl⟩ | h
      · simp [apply, set, hq]
      · simp only [Op.app.injEq] at ho
        simp [apply, set, hq, ← ho.1]
      · rw [crash_marks _ _ _ _ h]; simp [apply, set, hq]

theorem crash_jobs : ∀ (js : List Job) (s t : St), (js.map (·.path)).Nodup → CrashState s (jobsOps s js) t → ∀ q,
    t.fs q = s.fs q ∨ ∃ j ∈ js, q = j.path ∧ ∃ x k, x <+: j.text ∧ t.fs q = some (x, k) := by
  intro js
  induction js with
  | nil => intro s t _ h q; left; rw [crash_nil h]
  | cons j js ih =>
    intro s t hn h q
    simp only [List.map_cons, List.nodup_cons] at hn
    rcases crash_append _ _ h with h | h
    · rcases crash_job h q with h | ⟨h1, h2⟩
      · exact Or.inl h
      · exact Or.inr ⟨j, by simp, h1, h2⟩
    · rcases ih _ _ hn.2 h q with h | ⟨i, hi, h1, h2⟩
      · by_cases hq : q = j.path
        · rw [job_fs, if_pos hq] at h
          by_cases hc : (!j.force && same s j.path j.text) = true
          · rw [if_pos hc] at h; exact Or.inl h
          · rw [if_neg hc] at h; exact Or.inr ⟨j, by simp, hq, _, _, List.prefix_rfl, h⟩
        · rw [job_fs, if_neg hq] at h; exact Or.inl h
      · exact Or.inr ⟨i, by simp [hi], h1, h2⟩

/-! ## Paths -/

theorem join_inj {d a b : Str} (h : join d a = join d b) : a = b := by
  unfold join at h
  split at h
  · exact List.append_cancel_left h
  · have := List.append_cancel_left h
    simpa using this

theorem sv_inj {d a b : Str} (h : svPath d a = svPath d b) : a = b := List.append_cancel_right (join_inj h)
theorem dbg_inj {d a b : Str} (h : dbgPath d a = dbgPath d b) : a = b := List.append_cancel_right (join_inj h)

theorem last_ne {a b : Str} {x y : Str} (hx : x ≠ []) (hy : y ≠ []) (h : x.getLast? ≠ y.getLast?) : a ++ x ≠ b ++ y := by
  intro e
  have := congrArg List.getLast? e
  rw [List.getLast?_append, List.getLast?_append] at this
  cases h1 : x.getLast? with
  | none => exact hx (List.getLast?_eq_none_iff.1 h1)
  | some u =>
    cases h2 : y.getLast? with
    | none => exact hy (List.getLast?_eq_none_iff.1 h2)
    | some v => rw [h1, h2] at this h; simp at this; exact h (by rw [this])

theorem sv_dbg (d a b : Str) : svPath d a ≠ dbgPath d b := fun h => last_ne (by simp) (by simp) (by decide) (join_inj h)
theorem sv_head (d a b : Str) : svPath d a ≠ headPath d b := fun h => last_ne (by simp) (by simp) (by decide) (join_inj h)
theorem dbg_head (d a b : Str) : dbgPath d a ≠ headPath d b := fun h => last_ne (by simp) (by simp) (by decide) (join_inj h)

theorem nodup_map_inj {α β : Type} {f : α → β} (hf : ∀ a b, f a = f b → a = b) : ∀ {l : List α}, l.Nodup → (l.map f).Nodup := by
  intro l
  induction l with
  | nil => intro _; exact List.nodup_nil
  | cons a l ih =>
    intro h
    rw [List.nodup_cons] at h
    rw [List.map_cons, List.nodup_cons]
    refine ⟨?_, ih h.2⟩
    intro hm
    obtain ⟨b, hb, e⟩ := List.mem_map.1 hm
    exact h.1 (hf _ _ e ▸ hb)

theorem jobs_nodup (gens : List Gen) (o : Options) (header : Str) {m : Map Str Gen} (hn : (Map.keys m).Nodup) :
    ((allJobs gens o header m).map (·.path)).Nodup := by
  have h1 : (modJobs gens o.dir m).map (·.path) = (Map.keys m).map (svPath o.dir) := by
    simp [modJobs, Map.keys, Function.comp_def]
  have h2 : (dbgJobs o.dir m).map (·.path) = (Map.keys m).map (dbgPath o.dir) := by
    simp [dbgJobs, Map.keys, Function.comp_def]
  unfold allJobs
  rw [List.map_append, List.map_append, h1]
  have hs : ((Map.keys m).map (svPath o.dir)).Nodup := nodup_map_inj (fun _ _ => sv_inj) hn
  have hd : ((if o.debugInfo then dbgJobs o.dir m else []).map (·.path)).Nodup ∧
      ∀ p ∈ (if o.debugInfo then dbgJobs o.dir m else []).map (·.path), ∃ n, p = dbgPath o.dir n := by
    cases o.debugInfo with
    | false => simp
    | true =>
      simp only [if_true]
      rw [h2]
      refine ⟨nodup_map_inj (fun _ _ => dbg_inj) hn, ?_⟩
      intro p hp
      obtain ⟨n, _, rfl⟩ := List.mem_map.1 hp
      exact ⟨n, rfl⟩
  rw [List.nodup_append, List.nodup_append]
  refine ⟨⟨hs, hd.1, ?_⟩, by simp, ?_⟩
  · intro a ha b hb e
    obtain ⟨n, _, rfl⟩ := List.mem_map.1 ha
    obtain ⟨n', rfl⟩ := hd.2 b hb
    exact sv_dbg _ _ _ e
  · intro a ha b hb e
    simp only [List.map_cons, List.map_nil, List.mem_singleton] at hb
    subst hb
    rcases List.mem_append.1 ha with ha | ha
    · obtain ⟨n, _, rfl⟩ := List.mem_map.1 ha
      exact sv_head _ _ _ e
    · obtain ⟨n', rfl⟩ := hd.2 a ha
      exact dbg_head _ _ _ e

theorem inDir_iff (d f p : Str) : InDir d f p ↔ p = join d f := by
  unfold InDir join
  by_cases h1 : d = []
  · subst h1; simp
  · by_cases h2 : d.getLast? = some '/'
    · rw [if_pos (Or.inr h2)]
      obtain ⟨d', rfl⟩ := List.getLast?_eq_some_iff.1 h2
      constructor
      · rintro (h | ⟨x, hx, rfl⟩ | ⟨_, h, _⟩)
        · exact absurd h.1 h1
        · rw [hx]
        · exact absurd rfl (h d')
      · intro h; exact Or.inr (Or.inl ⟨d', rfl, h⟩)
    · rw [if_neg (by simp [h1, h2])]
      have hn : ∀ x, d ≠ x ++ ['/'] := by intro x hx; rw [hx] at h2; simp at h2
      constructor
      · rintro (h | ⟨x, hx, _⟩ | ⟨_, _, h⟩)
        · exact absurd h.1 h1
        · exact absurd hx (hn x)
        · simpa using h
      · intro h; exact Or.inr (Or.inr ⟨h1, hn, by simpa using h⟩)

/-! ## Jobs and wanted files -/

theorem job_wanted {gens : List Gen} {levels : List (List Gen)} {o : Options} {header : Str} {m : Map Str Gen}
    (hm : MapOk (fun g => ∃ l ∈ levels, g ∈ l) m) {j : Job} (hj : j ∈ allJobs gens o header m) :
    Wanted levels o header j.path j.text := by
  unfold allJobs at hj
  simp only [List.mem_append, List.mem_singleton] at hj
  rcases hj with (hj | hj) | rfl
  · obtain ⟨⟨n, g⟩, he, rfl⟩ := List.mem_map.1 hj
    obtain ⟨⟨l, hl, hg⟩, hx, rfl⟩ := hm.sound n g he
    exact Or.inl ⟨l, g, hl, hg, hx, (inDir_iff _ _ _).2 rfl, rfl⟩
  · by_cases hd : o.debugInfo = true
    · rw [if_pos hd] at hj
      obtain ⟨⟨n, g⟩, he, rfl⟩ := List.mem_map.1 hj
      obtain ⟨⟨l, hl, hg⟩, hx, rfl⟩ := hm.sound n g he
      exact Or.inr (Or.inl ⟨hd, l, g, hl, hg, hx, (inDir_iff _ _ _).2 rfl, rfl⟩)
    · rw [if_neg hd] at hj; cases hj
  · exact Or.inr (Or.inr ⟨(inDir_iff _ _ _).2 rfl, rfl⟩)

theorem wanted_job {levels : List (List Gen)} {o : Options} {header : Str} {m : Map Str Gen} (gens : List Gen)
    (hu : Uniquified levels) (hm : MapOk (fun g => ∃ l ∈ levels, g ∈ l) m) {p t : Str}
    (hw : Wanted levels o header p t) :
    ∃ j ∈ allJobs gens o header m, j.path = p ∧ j.text = t ∧
      ((∀ l g, l ∈ levels → g ∈ l → ¬ InDir o.dir (g.name ++ ['.', 's', 'v', '.', 'd', 'e', 'b', 'u', 'g']) p) →
        j.force = false) := by
  have key : ∀ l g, l ∈ levels → g ∈ l → g.external = false → ∃ g', (g.name, g') ∈ m ∧ g.src = g'.src ∧ g.dbg = g'.dbg := by
    intro l g hl hg hx
    have h1 := hm.full g ⟨l, hl, hg⟩ hx
    obtain ⟨⟨n, g'⟩, he, h2⟩ := List.mem_map.1 h1
    simp only at h2
    subst h2
    obtain ⟨⟨l', hl', hg'⟩, hx', hn⟩ := hm.sound _ g' he
    exact ⟨g', he, hu l g l' g' hl hg hl' hg' hx hx' hn.symm⟩
  unfold allJobs
  unfold Wanted at hw
  simp only [inDir_iff] at hw ⊢
  rcases hw with ⟨l, g, hl, hg, hx, rfl, rfl⟩ | ⟨hd, l, g, hl, hg, hx, rfl, rfl⟩ | ⟨rfl, rfl⟩
  · obtain ⟨g', he, h1, _⟩ := key l g hl hg hx
    refine ⟨⟨svPath o.dir g.name, g'.src, false, idsOf gens g.name⟩, ?_, rfl, h1.symm, fun _ => rfl⟩
    exact List.mem_append_left _ (List.mem_append_left _ (List.mem_map.2 ⟨_, he, rfl⟩))
  · obtain ⟨g', he, _, h1⟩ := key l g hl hg hx
    refine ⟨⟨dbgPath o.dir g.name, g'.dbg, true, []⟩, ?_, rfl, h1.symm, fun h => absurd rfl (h l g hl hg)⟩
    rw [if_pos hd]
    exact List.mem_append_left _ (List.mem_append_right _ (List.mem_map.2 ⟨_, he, rfl⟩))
  · exact ⟨⟨headPath o.dir o.pkg, t, false, []⟩, by simp, rfl, rfl, fun _ => rfl⟩

/-! ## Theorems -/

theorem inj_of_nodup {α β : Type} (f : α → β) : ∀ {l : List α}, (l.map f).Nodup → ∀ {a b : α}, a ∈ l → b ∈ l → f a = f b → a = b := by
  intro l
  induction l with
  | nil => intro _ a b ha; cases ha
  | cons x l ih =>
    intro h a b ha hb e
    rw [List.map_cons, List.nodup_cons] at h
    rcases List.mem_cons.1 ha with rfl | ha1 <;> rcases List.mem_cons.1 hb with rfl | hb1
    · rfl
    · exact absurd (e ▸ List.mem_map_of_mem hb1) h.1
    · exact absurd (e ▸ List.mem_map_of_mem ha1) h.1
    · exact ih h.2 ha1 hb1 e

/-- C105, partial: what is missing is the visit on several processors of a level with several
generators (`race`), and the file name of a generator whose file was right before (`stale_fn`). -/
theorem package_partial (cpus : Nat) (levels : List (List Gen)) (gens : List Gen) (top : Str) (o : Options)
    (header : Str) (evs : List Ev) (s : St) (hu : Uniquified levels) (hv : Visits cpus levels evs)
    (hal : Alone cpus levels) (ht : o.pkg ≠ top) (hg : ∀ l g, l ∈ levels → g ∈ l → g ∈ gens)
    (hid : (gens.map (·.id)).Nodup) :
    ∃ ops, generate gens top o header evs s = .ok ops ∧
      Complete levels o header (applyAll s ops) ∧ Frugal levels o header s (applyAll s ops) ∧
      (∀ t, CrashState s ops t → Partway levels o header s t) ∧
      ∀ l g, l ∈ levels → g ∈ l → g.external = false → g.debug = true →
        (∀ p k, InDir o.dir (g.name ++ ['.', 's', 'v']) p → s.fs p ≠ some (g.src, k)) →
        InDir o.dir (g.name ++ ['.', 's', 'v']) ((applyAll s ops).fn g.id) := by
  obtain ⟨v, h1, h2⟩ := visits_alone hv hal ⟨[], []⟩ (fun _ => False) rfl
    ⟨List.nodup_nil, fun n g h => (by cases h), fun g h => h.elim⟩
  have hm : MapOk (fun g => ∃ l ∈ levels, g ∈ l) v.map := h2.congr (by simp)
  have hn := jobs_nodup gens o header hm.nodup
  refine ⟨writeOps gens o header v.map s, ?_, ?_, ?_, ?_, ?_⟩
  · rw [generate, if_neg ht, h1, Res.ok_bind]
  · intro p t hw
    obtain ⟨j, hj, rfl, rfl, _⟩ := wanted_job gens hu hm hw
    rw [writeOps_jobs]
    exact (jobs_done _ s hn j hj).1
  · rw [writeOps_jobs]
    refine ⟨?_, ?_⟩
    · intro p hp
      apply jobs_frame
      intro hm'
      obtain ⟨j, hj, rfl⟩ := List.mem_map.1 hm'
      exact hp _ (job_wanted hm hj)
    · intro p t k hw hk hd
      obtain ⟨j, hj, rfl, rfl, hf⟩ := wanted_job gens hu hm hw
      exact (jobs_done _ s hn j hj).2 (hf hd) k hk
  · intro t hc p
    rw [writeOps_jobs] at hc
    rcases crash_jobs _ _ _ hn hc p with h | ⟨j, hj, rfl, x, k, hx, h⟩
    · exact Or.inl h
    · exact Or.inr ⟨j.text, x, k, job_wanted hm hj, hx, h⟩
  · intro l g hl hgl hx hdb hne
    rw [writeOps_jobs, inDir_iff]
    have hk := hm.full g ⟨l, hl, hgl⟩ hx
    obtain ⟨⟨n, g'⟩, he, h3⟩ := List.mem_map.1 hk
    simp only at h3
    subst h3
    obtain ⟨⟨l', hl', hg'⟩, hx', hnm⟩ := hm.sound _ g' he
    have hsrc := (hu l g l' g' hl hgl hl' hg' hx hx' hnm.symm).1
    refine jobs_fn _ s g.id hn ⟨svPath o.dir g.name, g'.src, false, idsOf gens g.name⟩ ?_ ?_ ?_ ?_
    · exact List.mem_append_left _ (List.mem_append_left _ (List.mem_map.2 ⟨_, he, rfl⟩))
    · exact List.mem_map.2 ⟨g, List.mem_filter.2 ⟨hg l g hl hgl, by simp [hdb]⟩, rfl⟩
    · intro x hxj hxi
      unfold allJobs at hxj
      simp only [List.mem_append, List.mem_singleton] at hxj
      rcases hxj with (hxj | hxj) | rfl
      · obtain ⟨⟨n, g2⟩, he2, rfl⟩ := List.mem_map.1 hxj
        obtain ⟨g3, h4, h5⟩ := List.mem_map.1 hxi
        obtain ⟨h6, h7⟩ := List.mem_filter.1 h4
        have := inj_of_nodup _ hid h6 (hg l g hl hgl) h5
        subst this
        simp only [Bool.and_eq_true, decide_eq_true_eq] at h7
        obtain ⟨rfl, _⟩ := h7
        have h8 := Map.find_of_mem hm.nodup he
        rw [Map.find_of_mem hm.nodup he2] at h8
        cases h8; rfl
      · by_cases hd : o.debugInfo = true
        · rw [if_pos hd] at hxj
          obtain ⟨e, _, rfl⟩ := List.mem_map.1 hxj
          cases hxi
        · rw [if_neg hd] at hxj; cases hxj
      · cases hxi
    · intro k; rw [← hsrc]; exact hne _ k ((inDir_iff _ _ _).2 rfl)

/-- The package must not have the name of the top module. -/
theorem package_name (gens : List Gen) (top : Str) (o : Options) (header : Str) (evs : List Ev) (s : St)
    (h : o.pkg = top) : generate gens top o header evs s = .throw .user := by
  rw [generate, if_pos h]

def gA : Gen := ⟨0, ['a'], false, true, ['m'], ['d']⟩
def gB : Gen := ⟨1, ['b'], false, true, ['n'], ['e']⟩
def opt : Options := ⟨['o'], ['p'], true⟩
def st0 : St := ⟨fun _ => none, 0, fun _ => []⟩

/-- Two modules in one level on two processors: a data race. -/
theorem race : ∃ evs, Visits 2 [[gA, gB]] evs ∧ generate [gA, gB] ['t'] opt ['h'] evs st0 = .ub := by
  refine ⟨[.start gA, .start gB, .stop gA, .stop gB] ++ [], .level ?_ .nil, by rfl⟩
  refine .start (by simp) (by decide) (.start (by decide) (by decide) (.stop (by decide) (.stop (by decide) ?_)))
  exact .done

theorem not_PackageClaim : ¬ PackageClaim := by
  intro h
  obtain ⟨evs, hv, hr⟩ := race
  obtain ⟨ops, ho, _⟩ := h 2 [[gA, gB]] [gA, gB] ['t'] opt ['h'] evs st0
    (by
      intro l g l' g' hl hg hl' hg' _ _ hn
      simp only [List.mem_singleton] at hl hl'
      subst hl hl'
      simp only [List.mem_cons, List.not_mem_nil, or_false] at hg hg'
      rcases hg with rfl | rfl <;> rcases hg' with rfl | rfl <;> first | exact ⟨rfl, rfl⟩ | exact absurd hn (by decide))
    hv (by decide)
    (by intro l g hl hg; simp only [List.mem_singleton] at hl; subst hl; exact hg) (by decide)
  rw [hr] at ho
  cases ho

/-- A generator whose file was right does not learn where it is, although nothing runs at the same
time. -/
theorem stale_fn : ∃ evs s, Visits 1 [[gA]] evs ∧ ∃ ops, generate [gA] ['t'] opt ['h'] evs s = .ok ops ∧
    gA.debug = true ∧ ¬ InDir opt.dir (gA.name ++ ['.', 's', 'v']) ((applyAll s ops).fn gA.id) := by
  refine ⟨[.start gA, .stop gA] ++ [],
    ⟨fun p => if p = ['o', '/', 'a', '.', 's', 'v'] then some (['m'], 0) else none, 0, fun _ => []⟩,
    .level (.start (by simp) (by decide) (.stop (by decide) .done)) .nil, _, rfl, rfl, by rw [inDir_iff]; decide⟩

/-- The hypotheses of `package_partial` are met by two modules on one processor. -/
example : ∃ evs, Visits 1 [[gA, gB]] evs ∧ Alone 1 [[gA, gB]] ∧
    ∃ ops, generate [gA, gB] ['t'] opt ['h'] evs st0 = .ok ops ∧ ops.length = 12 := by
  refine ⟨[.start gB, .stop gB, .start gA, .stop gA] ++ [], .level ?_ .nil, Or.inl (Nat.le_refl _), _, rfl, by decide⟩
  exact .start (by decide) (by decide) (.stop (by decide) (.start (by decide) (by decide) (.stop (by decide) .done)))

end Kratos.Package
