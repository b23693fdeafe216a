import Verif.Gen.FunctionsProps

/-!
# Imports of DPI functions

`extract_dpi_function` (`src/analysis.cc:1127-1256`) collects the DPI functions of all generators of
a design, one per name, and writes one `import "DPI-C"` line for each; `generate_sv_package_header`
prints them with `int_interface` set (`src/codegen.cc:1296`), so every port gets one of the C types of
SystemVerilog.  `kratos/func.py:61-120` is how Python declares such a function and calls it.

The import line is kept as a record of its parts.  With `int_interface` unset (only unit tests do that)
the ports would be printed with their own widths; that branch is not modelled.  A port has `size` one
(`src/stmt.cc:724, 762`), so the comparison of sizes never fails.
-/

namespace Kratos.Func

/-! ## Collection -/

/-- The loop over the ports of the first function with the name (src/analysis.cc:1153-1169). -/
def samePorts : List (Name × Prt) → Map Name Prt → Res Unit
  | [], _ => .ok ()
  | (n, r) :: ps, ports =>
    match Map.find ports n with
    | none => .throw .var
    | some p => if p.signed ≠ r.signed ∨ p.dir ≠ r.dir then .throw .var else samePorts ps ports

/-- `DPIVisitor::visit` (src/analysis.cc:1129-1175).  The return widths are compared, but the
`throw` is guarded by a comparison of the numbers of ports, which are equal there (1146-1152). -/
def visitDpi (acc : Map Name Fn) (n : Name) (F : Fn) : Res (Map Name Fn) :=
  if F.kind ≠ .dpi then .ok acc
  else match Map.find acc n with
    | none => .ok (emplace n F acc)
    | some R =>
      if R.ports.length ≠ F.ports.length then .throw .stmt
      else (samePorts R.ports F.ports).bind fun _ =>
        if F.context ≠ R.context ∨ F.pureFn ≠ R.pureFn then .throw .stmt else .ok acc

/-- `visit_root`: the functions of the design in the order in which they are visited. -/
def collect : Map Name Fn → List (Name × Fn) → Res (Map Name Fn)
  | acc, [] => .ok acc
  | acc, (n, F) :: l => (visitDpi acc n F).bind fun acc' => collect acc' l

/-! ## The import lines -/

inductive Ty where | void | bit | byte | shortint | int | longint
  deriving DecidableEq, Repr

/-- The type of the result (src/analysis.cc:1199-1211). -/
def retTy (w : Nat) : Ty :=
  if w = 0 then .void else if w = 1 then .bit else if w ≤ 8 then .byte
  else if w ≤ 16 then .shortint else if w ≤ 32 then .int else .longint

/-- The type of a port (src/analysis.cc:1230-1239). -/
def portTy (w : Nat) : Ty :=
  if w ≤ 8 then .byte else if w ≤ 16 then .shortint else if w ≤ 32 then .int else .longint

inductive Attr where | none | pure | context
  deriving DecidableEq, Repr

/-- One parameter of the line: direction, type, whether `signed` is written, name. -/
structure Param where
  dir : Dir
  ty : Ty
  signed : Bool
  name : Name
  deriving DecidableEq, Repr

structure Import where
  attr : Attr
  ret : Ty
  name : Name
  params : List Param
  deriving DecidableEq, Repr

/-- `stmt->is_pure()`, else `is_context()` (src/analysis.cc:1192-1196). -/
def attrOf (F : Fn) : Attr := if F.pureFn then .pure else if F.context then .context else .none

/-- The order of the ports (src/analysis.cc:1214-1224): the comparison throws if a port has no place. -/
def importOrder (F : Fn) (o : Res (List Name)) : Prop :=
  if (Map.keys F.ports).all (Map.has F.ordering) then
    Lists.StdSort (fun a b => at' F.ordering a < at' F.ordering b) (Map.keys F.ports) o
  else o = .throw .outOfRange ∨ F.ports.length ≤ 1 ∧ o = .ok (Map.keys F.ports)

/-- One parameter (src/analysis.cc:1226-1244). -/
def paramOf (F : Fn) (n : Name) : Param :=
  match Map.find F.ports n with
  | some p => ⟨p.dir, portTy p.width, p.signed, n⟩
  | none => ⟨.inp, .void, false, n⟩

/-- The line for a function (src/analysis.cc:1189-1253). -/
def IsImport (n : Name) (F : Fn) (i : Import) : Prop :=
  ∃ fs, importOrder F (.ok fs) ∧ i = ⟨attrOf F, retTy F.retWidth, n, fs.map (paramOf F)⟩

/-! ## Python -/

/-- The generators of a design and the cache `DPIFunctionCall.cache_ordering`, keyed by the name of
the function: the names of its arguments in turn, and the generator of the first call. -/
structure Py where
  gens : Nat → Gen
  cache : Map Name (List Name × Nat)

/-- `func.input(name, w, signed)` for every argument (kratos/func.py:104-107). -/
def inputs (f : Name) : List (Name × Nat × Bool) → List Op
  | [] => []
  | (n, w, s) :: l => .input f n w s :: inputs f l

/-- The names with their places. -/
def places : Nat → List Name → List (Nat × Name)
  | _, [] => []
  | i, n :: l => (i, n) :: places (i + 1) l

/-- `_DPIFunctionCall.__call__` (kratos/func.py:81-118) on arguments of generator `gen`, as many as
the function has names.  The attributes pure and context are left out. -/
def pyCall (s : Py) (gen : Nat) (f : Name) (names : List Name) (width : Nat) (args : List Arg) :
    Res (Py × Call × Nat) :=
  -- declare it in the generator of the arguments
  let declared : Res Gen :=
    if Map.has (s.gens gen).funcs f then .ok (s.gens gen)
    else run (s.gens gen) [.dpi f, .returnWidth f width]
  declared.bind fun g =>
  match Map.find s.cache f with
  | none =>
    (run g (inputs f (names.zip (args.map fun a => (a.width, a.signed))) ++
      [.orderIndex f (places 0 names)])).bind fun g' =>
    (callNamed g' f (names.zip args)).bind fun c =>
    .ok (⟨fun k => if k = gen then g' else s.gens k, Map.emplace s.cache f (names, gen)⟩, c, gen)
  | some (order, gen') =>
    let gens := fun k => if k = gen then g else s.gens k
    (callNamed (gens gen') f (order.zip args)).bind fun c =>
    .ok (⟨gens, s.cache⟩, c, gen')

/-! ## Specification -/

/-- The number of bits of a type (IEEE 1800, 6.11). -/
def Ty.bits : Ty → Nat
  | .void => 0 | .bit => 1 | .byte => 8 | .shortint => 16 | .int => 32 | .longint => 64

/-- `byte`, `shortint`, `int` and `longint` are signed unless `unsigned` is written. -/
def Ty.signed : Ty → Bool
  | .void => false | .bit => false | _ => true

/-- The integer that a bit pattern stands for, by width and sign. -/
def meaning (signed : Bool) (w v : Nat) : Int :=
  if signed = true ∧ 2 ^ (w - 1) ≤ v then (v : Int) - 2 ^ w else v

/-- The pattern that a port of width `w` has in a type: extended by its sign, or cut off. -/
def extend (signed : Bool) (w b v : Nat) : Nat :=
  if signed = true ∧ 2 ^ (w - 1) ≤ v then (v + (2 ^ b - 2 ^ w)) % 2 ^ b else v % 2 ^ b

/-- A design: functions of tables that histories reach, in any order of visiting. -/
def Design (ds : List (Name × Fn)) : Prop := ∀ e ∈ ds, ∃ g, Reach g ∧ e ∈ g.funcs

/-- What a user expects of a port: the C side gets the number that the port holds. -/
def ValueClaim : Prop :=
  ∀ (p : Prt) (v : Nat), 0 < p.width → v < 2 ^ p.width →
    meaning (portTy p.width).signed (portTy p.width).bits
      (extend p.signed p.width (portTy p.width).bits v) = meaning p.signed p.width v

/-- The keyword of the line says what the function is (it cannot be both: each setter clears the
other flag). -/
def SameAttr (a : Attr) (F : Fn) : Prop :=
  (a = .pure ↔ F.pureFn = true) ∧ (a = .context ↔ F.context = true ∧ F.pureFn = false)

/-- A line describes a function: the parameters are its ports in its order, with room for their
widths, and the result has room for the result. -/
def Describes (i : Import) (F : Fn) : Prop :=
  (∃ fs, importOrder F (.ok fs) ∧ fs = i.params.map (·.name)) ∧
  (∀ q ∈ i.params, ∃ p, (q.name, p) ∈ F.ports ∧ p.dir = q.dir ∧ p.signed = q.signed ∧
    p.width ≤ q.ty.bits) ∧
  F.retWidth ≤ i.ret.bits ∧ SameAttr i.attr F

/-- What a user expects of a design that is accepted: the line of a name describes every function
with that name. -/
def DescribesClaim : Prop :=
  ∀ ds acc, Design ds → collect [] ds = .ok acc → ∀ n R F i, (n, R) ∈ acc → IsImport n R i →
    (n, F) ∈ ds → F.kind = .dpi → Describes i F

/-- What a user expects of Python: two generators may call one function. -/
def SharedClaim : Prop :=
  ∀ (s : Py) (a b : Nat) (f : Name) (names : List Name) (w : Nat) (args1 args2 : List Arg)
    (s1 s2 : Py) (c1 c2 : Call) (g1 g2 : Nat),
    s = ⟨fun _ => empty, []⟩ → a ≠ b →
    pyCall s a f names w args1 = .ok (s1, c1, g1) → pyCall s1 b f names w args2 = .ok (s2, c2, g2) →
    ∃ acc, collect [] ((s2.gens a).funcs ++ (s2.gens b).funcs) = .ok acc

/-! ## Theorems -/

theorem samePorts_iff (ports : Map Name Prt) : ∀ rs : List (Name × Prt),
    samePorts rs ports = .ok () ↔
      ∀ n r, (n, r) ∈ rs → ∃ p, Map.find ports n = some p ∧ p.signed = r.signed ∧ p.dir = r.dir
  | [] => by simp [samePorts]
  | (m, q) :: rs => by
    have ih := samePorts_iff ports rs
    simp only [samePorts]
    cases hf : Map.find ports m with
    | none =>
      refine ⟨fun h => (by cases h), fun h => ?_⟩
      obtain ⟨p, hp, _⟩ := h m q (by simp)
      rw [hf] at hp; cases hp
    | some p =>
      simp only
      by_cases hc : p.signed ≠ q.signed ∨ p.dir ≠ q.dir
      · rw [if_pos hc]
        refine ⟨fun h => (by cases h), fun h => ?_⟩
        obtain ⟨p', hp', h1, h2⟩ := h m q (by simp)
        rw [hf] at hp'; cases hp'
        rcases hc with hc | hc
        · exact absurd h1 hc
        · exact absurd h2 hc
      · rw [if_neg hc, ih]
        simp only [not_or, ne_eq, Decidable.not_not] at hc
        constructor
        · intro h n r hr
          rcases List.mem_cons.1 hr with e | hr
          · cases e; exact ⟨p, hf, hc⟩
          · exact h n r hr
        · exact fun h n r hr => h n r (List.mem_cons_of_mem _ hr)

/-- What the visitor compares. -/
def Agree (R F : Fn) : Prop :=
  R.ports.length = F.ports.length ∧
  (∀ n r, (n, r) ∈ R.ports → ∃ p, (n, p) ∈ F.ports ∧ p.signed = r.signed ∧ p.dir = r.dir) ∧
  F.context = R.context ∧ F.pureFn = R.pureFn

theorem visit_some {acc : Map Name Fn} {n : Name} {F R : Fn} (hs : Sorted F.ports)
    (hk : F.kind = .dpi) (hf : Map.find acc n = some R) :
    (∀ acc', visitDpi acc n F = .ok acc' → acc' = acc) ∧
    ((∃ acc', visitDpi acc n F = .ok acc') ↔ Agree R F) := by
  simp only [visitDpi, hk, ne_eq, not_true, if_false, hf]
  by_cases hl : R.ports.length = F.ports.length
  · rw [if_neg (fun h => h hl)]
    have hsp : samePorts R.ports F.ports = .ok () ↔
        ∀ n r, (n, r) ∈ R.ports → ∃ p, (n, p) ∈ F.ports ∧ p.signed = r.signed ∧ p.dir = r.dir := by
      rw [samePorts_iff]
      constructor
      · intro h n r hr
        obtain ⟨p, hp, h⟩ := h n r hr
        exact ⟨p, (find_mem hs).1 hp, h⟩
      · intro h n r hr
        obtain ⟨p, hp, h⟩ := h n r hr
        exact ⟨p, (find_mem hs).2 hp, h⟩
    by_cases hc : ¬F.context = R.context ∨ ¬F.pureFn = R.pureFn
    · refine ⟨fun acc' h => ?_, ⟨fun ⟨acc', h⟩ => ?_, fun h => ?_⟩⟩
      · simp only [Res.bind_eq_ok, if_pos hc] at h
        obtain ⟨_, _, h⟩ := h; cases h
      · simp only [Res.bind_eq_ok, if_pos hc] at h
        obtain ⟨_, _, h⟩ := h; cases h
      · rcases hc with hc | hc
        · exact absurd h.2.2.1 hc
        · exact absurd h.2.2.2 hc
    · refine ⟨fun acc' h => ?_, ⟨fun ⟨acc', h⟩ => ?_, fun h => ⟨acc, ?_⟩⟩⟩
      · simp only [Res.bind_eq_ok, if_neg hc, Res.ok.injEq] at h
        obtain ⟨_, _, h⟩ := h; exact h.symm
      · simp only [Res.bind_eq_ok, if_neg hc] at h
        obtain ⟨_, h1, _⟩ := h
        simp only [not_or, Decidable.not_not] at hc
        exact ⟨hl, hsp.1 h1, hc⟩
      · rw [hsp.2 h.2.1, Res.ok_bind, if_neg hc]
  · rw [if_pos hl]
    exact ⟨fun _ h => (by cases h), ⟨fun ⟨_, h⟩ => (by cases h), fun h => absurd h.1 hl⟩⟩

/-- The first function of a name stays in the collection, and the later ones agree with it. -/
theorem collect_spec : ∀ (ds : List (Name × Fn)) {acc acc' : Map Name Fn}, Sorted acc →
    (∀ e ∈ ds, FnOk e.2) → collect acc ds = .ok acc' →
    Sorted acc' ∧ (∀ e ∈ acc, e ∈ acc') ∧ (∀ e ∈ acc', e ∈ acc ∨ e ∈ ds ∧ e.2.kind = .dpi) ∧
    ∀ n F, (n, F) ∈ ds → F.kind = .dpi → ∃ R, (n, R) ∈ acc' ∧ (R = F ∨ Agree R F)
  | [], acc, acc', hs, _, h => by
    simp only [collect, Res.ok.injEq] at h; subst h
    exact ⟨hs, fun _ h => h, fun _ h => Or.inl h, by simp⟩
  | (n, F) :: ds, acc, acc', hs, ok, h => by
    simp only [collect, Res.bind_eq_ok] at h
    obtain ⟨acc1, h1, h⟩ := h
    have okF := ok (n, F) (by simp)
    have ok' : ∀ e ∈ ds, FnOk e.2 := fun e he => ok e (List.mem_cons_of_mem _ he)
    have key : Sorted acc1 ∧ (∀ e ∈ acc, e ∈ acc1) ∧
        (∀ e ∈ acc1, e ∈ acc ∨ e = (n, F) ∧ F.kind = .dpi) ∧
        (F.kind = .dpi → ∃ R, (n, R) ∈ acc1 ∧ (R = F ∨ Agree R F)) := by
      by_cases hk : F.kind = .dpi
      · cases hf : Map.find acc n with
        | none =>
          simp only [visitDpi, hk, ne_eq, not_true, if_false, hf, Res.ok.injEq] at h1
          subst h1
          have habs := Map.find_none_iff.1 hf
          refine ⟨emplace_sorted hs _ _, fun e he => (mem_emplace hs).2 (Or.inl he), fun e he => ?_,
            fun _ => ⟨F, (mem_emplace hs).2 (Or.inr ⟨habs, rfl⟩), Or.inl rfl⟩⟩
          rcases (mem_emplace hs).1 he with he | ⟨_, he⟩
          · exact Or.inl he
          · exact Or.inr ⟨he, hk⟩
        | some R =>
          obtain ⟨hsame, hiff⟩ := visit_some okF.ports hk hf
          have := hsame _ h1
          subst this
          exact ⟨hs, fun _ h => h, fun _ h => Or.inl h,
            fun _ => ⟨R, Map.mem_of_find hf, Or.inr (hiff.1 ⟨_, h1⟩)⟩⟩
      · simp only [visitDpi, if_pos hk, Res.ok.injEq] at h1
        subst h1
        exact ⟨hs, fun _ h => h, fun _ h => Or.inl h, fun h => absurd h hk⟩
    obtain ⟨s', k1, k2, k3⟩ := collect_spec ds key.1 ok' h
    refine ⟨s', fun e he => k1 e (key.2.1 e he), fun e he => ?_, fun m G hG hk => ?_⟩
    · rcases k2 e he with he | he
      · rcases key.2.2.1 e he with he | ⟨he, hk⟩
        · exact Or.inl he
        · subst he; exact Or.inr ⟨by simp, hk⟩
      · exact Or.inr ⟨List.mem_cons_of_mem _ he.1, he.2⟩
    · rcases List.mem_cons.1 hG with e | hG
      · cases e
        obtain ⟨R, hR, hh⟩ := key.2.2.2 hk
        exact ⟨R, k1 _ hR, hh⟩
      · exact k3 m G hG hk

theorem design_ok {ds : List (Name × Fn)} (h : Design ds) : ∀ e ∈ ds, FnOk e.2 := by
  intro e he
  obtain ⟨g, hg, hm⟩ := h e he
  exact (reach_inv hg).fns e.1 e.2 hm

/-- A DPI function can always be printed, with its ports in the order of the declaration. -/
theorem import_exists {g : Gen} {f : Name} {F : Fn} (hg : Reach g) (hF : (f, F) ∈ g.funcs)
    (hk : F.kind = .dpi) :
    (∃ fs, importOrder F (.ok fs)) ∧ (∀ e, ¬ importOrder F (.throw e)) ∧ ¬ importOrder F .ub ∧
    ∀ fs, importOrder F (.ok fs) → fs.Perm (F.ports.map (·.1)) ∧ declOrder F (.ok fs) := by
  have ok := (reach_inv hg).fns _ _ hF
  have hall : (Map.keys F.ports).all (Map.has F.ordering) = true := by
    rw [List.all_eq_true, ← ok.dpi hk]
    exact fun k hk => Map.has_iff.2 hk
  simp only [importOrder, if_pos hall]
  refine ⟨Lists.sort_exists (key_weak _ _), fun e => by simp [Lists.StdSort],
    fun h => h (key_weak _ _), fun fs h => ⟨h.2.1.symm, ?_⟩⟩
  have hl : F.ordering.length = F.ports.length := by
    have := congrArg List.length (ok.dpi hk)
    simpa [Map.keys] using this
  by_cases ho : F.ordering = []
  · rw [declOrder, if_pos ho]
    have hp : F.ports = [] := List.length_eq_zero_iff.1 (by rw [← hl, ho]; rfl)
    have := h.2.1
    rw [hp] at this ⊢
    have := List.Perm.nil_eq this
    subst this
    rfl
  · rw [declOrder, if_neg ho, if_neg (fun h => h hl), if_pos hall]
    exact h

theorem portTy_bits (w : Nat) : (portTy w).bits =
    if w ≤ 8 then 8 else if w ≤ 16 then 16 else if w ≤ 32 then 32 else 64 := by
  unfold portTy; repeat' split
  all_goals rfl

theorem retTy_bits (w : Nat) : (retTy w).bits =
    if w = 0 then 0 else if w = 1 then 1 else if w ≤ 8 then 8 else if w ≤ 16 then 16
    else if w ≤ 32 then 32 else 64 := by
  unfold retTy; repeat' split
  all_goals rfl

theorem bits_cases (t : Ty) : t = .void ∧ t.bits = 0 ∨ t = .bit ∧ t.bits = 1 ∨ t.bits = 8 ∨
    t.bits = 16 ∨ t.bits = 32 ∨ t.bits = 64 := by
  cases t <;> simp [Ty.bits]

/-- The types have room for up to 64 bits, and are the smallest with room. -/
theorem types_fit (w : Nat) :
    (w ≤ 64 ↔ w ≤ (portTy w).bits) ∧ (w ≤ 64 ↔ w ≤ (retTy w).bits) ∧
    (∀ t : Ty, t ≠ .void → t ≠ .bit → w ≤ t.bits → (portTy w).bits ≤ t.bits) ∧
    (∀ t : Ty, w ≤ t.bits → (retTy w).bits ≤ t.bits) := by
  rw [portTy_bits, retTy_bits]
  refine ⟨?_, ?_, fun t h1 h2 h => ?_, fun t h => ?_⟩
  · repeat' split
    all_goals omega
  · repeat' split
    all_goals omega
  · rcases bits_cases t with ⟨e, _⟩ | ⟨e, _⟩ | e | e | e | e
    · exact absurd e h1
    · exact absurd e h2
    all_goals rw [e] at h ⊢; repeat' split
    all_goals omega
  · rcases bits_cases t with ⟨_, e⟩ | ⟨_, e⟩ | e | e | e | e
    all_goals rw [e] at h ⊢; repeat' split
    all_goals omega

theorem portTy_signed (w : Nat) : (portTy w).signed = true := by
  unfold portTy; repeat' split
  all_goals rfl

/-- **The number that a port holds arrives** exactly when the port is signed, or narrower than its
type, or the number is in the lower half. -/
theorem value_iff (p : Prt) (v : Nat) (h0 : 0 < p.width) (h64 : p.width ≤ 64) (hv : v < 2 ^ p.width) :
    meaning (portTy p.width).signed (portTy p.width).bits
      (extend p.signed p.width (portTy p.width).bits v) = meaning p.signed p.width v ↔
    (p.signed = true ∨ p.width ≠ (portTy p.width).bits ∨ v < 2 ^ (p.width - 1)) := by
  have hb := (types_fit p.width).1.1 h64
  rw [portTy_signed]
  generalize (portTy p.width).bits = b at hb
  obtain ⟨w, s, d⟩ := p
  simp only at *
  have hwb : 2 ^ w ≤ 2 ^ b := Nat.pow_le_pow_right (by omega) hb
  have hwb1 : 2 ^ (w - 1) ≤ 2 ^ (b - 1) := Nat.pow_le_pow_right (by omega) (by omega)
  have hw2 : 2 ^ w = 2 ^ (w - 1) + 2 ^ (w - 1) := by
    obtain ⟨k, rfl⟩ : ∃ k, w = k + 1 := ⟨w - 1, by omega⟩
    rw [Nat.add_sub_cancel, Nat.pow_succ]; omega
  have hb2 : 2 ^ b = 2 ^ (b - 1) + 2 ^ (b - 1) := by
    obtain ⟨k, rfl⟩ : ∃ k, b = k + 1 := ⟨b - 1, by omega⟩
    rw [Nat.add_sub_cancel, Nat.pow_succ]; omega
  have cw : ((2 : Int) ^ w) = ((2 ^ w : Nat) : Int) := by simp
  have cb : ((2 : Int) ^ b) = ((2 ^ b : Nat) : Int) := by simp
  cases s with
  | true =>
    simp only [meaning, extend, true_and, cw, cb, true_or, iff_true]
    by_cases hh : 2 ^ (w - 1) ≤ v
    · rw [if_pos hh, if_pos hh, Nat.mod_eq_of_lt (by omega), if_pos (by omega)]
      omega
    · rw [if_neg hh, if_neg hh, Nat.mod_eq_of_lt (by omega), if_neg (by omega)]
  | false =>
    simp only [meaning, extend, true_and, cb, Bool.false_eq_true, false_and, if_false, false_or]
    rw [Nat.mod_eq_of_lt (by omega)]
    by_cases e : w = b
    · subst e
      simp only [ne_eq, not_true, false_or]
      by_cases hh : 2 ^ (w - 1) ≤ v
      · rw [if_pos hh]; omega
      · rw [if_neg hh]; omega
    · have h2 : 2 ^ w ≤ 2 ^ (b - 1) := Nat.pow_le_pow_right (by omega) (by omega)
      rw [if_neg (by omega)]
      simp [e]

/-- The number that a port holds arrives, unless it is unsigned and fills its type. -/
theorem value_partial (p : Prt) (v : Nat) (h0 : 0 < p.width) (h64 : p.width ≤ 64) (hv : v < 2 ^ p.width)
    (h : p.signed = true ∨ p.width ≠ 8 ∧ p.width ≠ 16 ∧ p.width ≠ 32 ∧ p.width ≠ 64) :
    meaning (portTy p.width).signed (portTy p.width).bits
      (extend p.signed p.width (portTy p.width).bits v) = meaning p.signed p.width v := by
  rw [value_iff p v h0 h64 hv]
  rcases h with h | h
  · exact Or.inl h
  · refine Or.inr (Or.inl ?_)
    rw [portTy_bits]
    repeat' split
    all_goals omega

/-- Beyond 64 bits a number may be lost. -/
theorem wide_lost (p : Prt) (h : 64 < p.width) : ∃ v, v < 2 ^ p.width ∧
    meaning (portTy p.width).signed (portTy p.width).bits
      (extend p.signed p.width (portTy p.width).bits v) ≠ meaning p.signed p.width v := by
  have hb : (portTy p.width).bits = 64 := by
    rw [portTy_bits]; repeat' split
    all_goals omega
  refine ⟨2 ^ 64, Nat.pow_lt_pow_right (by omega) h, ?_⟩
  rw [hb, portTy_signed]
  have hw : 2 ^ 64 < 2 ^ p.width := Nat.pow_lt_pow_right (by omega) h
  have he : extend p.signed p.width 64 (2 ^ 64) = 0 := by
    unfold extend
    split
    · rw [show 2 ^ 64 - 2 ^ p.width = 0 by omega, Nat.add_zero, Nat.mod_self]
    · exact Nat.mod_self _
  rw [he]
  have e1 : meaning true 64 0 = 0 := by
    unfold meaning; rw [if_neg (by decide)]; rfl
  rw [e1]
  have cw : ((2 : Int) ^ p.width) = ((2 ^ p.width : Nat) : Int) := by simp
  unfold meaning
  split
  · rw [cw]; omega
  · omega

theorem not_ValueClaim : ¬ ValueClaim := by
  intro h
  have := h ⟨8, false, .inp⟩ 200 (by decide) (by decide)
  revert this
  decide

/-! ### One line for all functions of a name -/

theorem acc_unique {acc : Map Name Fn} (hs : Sorted acc) {n : Name} {R R' : Fn} (h : (n, R) ∈ acc)
    (h' : (n, R') ∈ acc) : R = R' := by
  have h1 := (find_mem hs).2 h
  rw [(find_mem hs).2 h'] at h1
  exact (Option.some.inj h1).symm

theorem paramOf_mem {F : Fn} (ok : FnOk F) {n : Name} (h : n ∈ Map.keys F.ports) :
    ∃ p, (n, p) ∈ F.ports ∧ paramOf F n = ⟨p.dir, portTy p.width, p.signed, n⟩ := by
  obtain ⟨p, hp⟩ := Map.mem_keys.1 h
  exact ⟨p, hp, by simp [paramOf, (find_mem ok.ports).2 hp]⟩

theorem importOrder_perm {F : Fn} {fs : List Name} (h : importOrder F (.ok fs)) :
    fs.Perm (Map.keys F.ports) := by
  simp only [importOrder] at h
  split at h
  · exact h.2.1.symm
  · rcases h with h | ⟨_, h⟩
    · cases h
    · cases h; exact List.Perm.refl _

theorem params_names {F : Fn} (ok : FnOk F) {fs : List Name} (h : importOrder F (.ok fs)) :
    (fs.map (paramOf F)).map (·.name) = fs := by
  rw [List.map_map]
  conv => rhs; rw [← List.map_id fs]
  apply List.map_congr_left
  intro n hn
  obtain ⟨p, _, e⟩ := paramOf_mem ok ((importOrder_perm h).mem_iff.1 hn)
  simp [e]

/-- **The line of a name describes the functions with that name**: its parameters are their ports
with their directions and signs, and the attribute is theirs.  The order, the widths and the result are
those of the function that is visited first. -/
theorem describes_partial {ds : List (Name × Fn)} {acc : Map Name Fn} {n : Name} {R F : Fn} {i : Import}
    (hd : Design ds) (hc : collect [] ds = .ok acc) (hR : (n, R) ∈ acc) (hi : IsImport n R i)
    (hF : (n, F) ∈ ds) (hk : F.kind = .dpi) :
    i.name = n ∧ (i.params.map (·.name)).Perm (F.ports.map (·.1)) ∧
    (∀ q ∈ i.params, ∃ p, (q.name, p) ∈ F.ports ∧ p.dir = q.dir ∧ p.signed = q.signed) ∧
    SameAttr i.attr F ∧
    (F = R → F.retWidth ≤ 64 → (∀ e ∈ F.ports, e.2.width ≤ 64) → Describes i F) := by
  have ok := design_ok hd
  obtain ⟨hs, _, hm, ha⟩ := collect_spec ds (show Sorted [] from List.Pairwise.nil) ok hc
  have okR : FnOk R := ok (n, R) ((hm _ hR).resolve_left (by simp)).1
  have okF : FnOk F := ok (n, F) hF
  obtain ⟨R', hR', hag⟩ := ha n F hF hk
  have := acc_unique hs hR' hR
  subst this
  obtain ⟨fs, hfs, rfl⟩ := hi
  have hperm := importOrder_perm hfs
  have hnames := params_names okR hfs
  -- the ports
  have hsub : ∀ k ∈ Map.keys R'.ports, ∃ p r, (k, p) ∈ F.ports ∧ (k, r) ∈ R'.ports ∧
      p.dir = r.dir ∧ p.signed = r.signed := by
    intro k hk
    obtain ⟨r, hr⟩ := Map.mem_keys.1 hk
    rcases hag with e | hag
    · subst e; exact ⟨r, r, hr, hr, rfl, rfl⟩
    · obtain ⟨p, hp, h1, h2⟩ := hag.2.1 k r hr
      exact ⟨p, r, hp, hr, h2, h1⟩
  have hlen : (Map.keys R'.ports).length = (Map.keys F.ports).length := by
    rcases hag with e | hag
    · rw [e]
    · simpa [Map.keys] using hag.1
  have hmem : ∀ k, k ∈ Map.keys R'.ports ↔ k ∈ Map.keys F.ports := by
    have h1 : ∀ k ∈ Map.keys R'.ports, k ∈ Map.keys F.ports := fun k hk => by
      obtain ⟨p, _, hp, _⟩ := hsub k hk
      exact Map.mem_keys.2 ⟨p, hp⟩
    exact fun k => ⟨h1 k, subset_of_length okR.ports.nodup h1 hlen k⟩
  have hpar : ∀ q ∈ fs.map (paramOf R'), ∃ p, (q.name, p) ∈ F.ports ∧ p.dir = q.dir ∧
      p.signed = q.signed := by
    intro q hq
    obtain ⟨k, hk, rfl⟩ := List.mem_map.1 hq
    have hk' := hperm.mem_iff.1 hk
    obtain ⟨r', hr', e⟩ := paramOf_mem okR hk'
    obtain ⟨p, r, hp, hr, h1, h2⟩ := hsub k hk'
    have hrr : r' = r := by
      have h1 := (find_mem okR.ports).2 hr'
      rw [(find_mem okR.ports).2 hr] at h1
      exact (Option.some.inj h1).symm
    subst hrr
    rw [e]
    exact ⟨p, hp, h1, h2⟩
  have hattr : SameAttr (attrOf R') F := by
    have : attrOf R' = attrOf F := by
      rcases hag with e | hag
      · rw [e]
      · simp only [attrOf, hag.2.2.1, hag.2.2.2]
    rw [this]
    unfold SameAttr attrOf
    cases F.pureFn <;> cases F.context <;> simp
  refine ⟨rfl, ?_, hpar, hattr, fun e hr hw => ?_⟩
  · show ((fs.map (paramOf R')).map (·.name)).Perm _
    rw [hnames]
    exact hperm.trans ((List.perm_ext_iff_of_nodup okR.ports.nodup okF.ports.nodup).2 hmem)
  · subst e
    refine ⟨⟨fs, hfs, hnames.symm⟩, fun q hq => ?_, (types_fit _).2.1.1 hr, hattr⟩
    obtain ⟨k, hk, rfl⟩ := List.mem_map.1 hq
    obtain ⟨p, hp, e⟩ := paramOf_mem okR (hperm.mem_iff.1 hk)
    rw [e]
    exact ⟨p, hp, rfl, rfl, (types_fit _).1.1 (hw _ hp)⟩

/-- The first line and a call printed for the function of another generator need not agree: here are
the two histories that the counterexamples use. -/
def dpiFn (ports : Map Name Prt) (ordering : Map Name Nat) (w : Nat) : Fn :=
  ⟨.dpi, ports, ordering, none, false, w, false, false⟩

def abFn : Fn := dpiFn [(nm "a", ⟨8, false, .inp⟩), (nm "b", ⟨8, false, .inp⟩)] [(nm "a", 0), (nm "b", 1)] 0
def baFn : Fn := dpiFn [(nm "a", ⟨8, false, .inp⟩), (nm "b", ⟨8, false, .inp⟩)] [(nm "a", 1), (nm "b", 0)] 0
def wideFn : Fn := dpiFn [(nm "a", ⟨9, false, .inp⟩), (nm "b", ⟨8, false, .inp⟩)] [(nm "a", 0), (nm "b", 1)] 16

theorem ab_reach : Reach ⟨[(nm "h", abFn)], [(0, nm "h")]⟩ :=
  ⟨[.dpi (nm "h"), .input (nm "h") (nm "a") 8 false, .input (nm "h") (nm "b") 8 false], by decide +kernel⟩
theorem ba_reach : Reach ⟨[(nm "h", baFn)], [(0, nm "h")]⟩ :=
  ⟨[.dpi (nm "h"), .input (nm "h") (nm "b") 8 false, .input (nm "h") (nm "a") 8 false], by decide +kernel⟩
theorem wide_reach : Reach ⟨[(nm "h", wideFn)], [(0, nm "h")]⟩ :=
  ⟨[.dpi (nm "h"), .input (nm "h") (nm "a") 9 false, .input (nm "h") (nm "b") 8 false,
    .returnWidth (nm "h") 16], by decide +kernel⟩

theorem ab_order : importOrder abFn (.ok [nm "a", nm "b"]) := by
  rw [importOrder, if_pos (by decide +kernel)]
  exact ⟨key_weak _ _, by decide +kernel, by decide +kernel⟩

/-- Two generators declare `h(a, b)` and `h(b, a)`: this is accepted, the line has the first order and
the calls of the second generator are printed in the other. -/
theorem order_wrong : collect [] [(nm "h", abFn), (nm "h", baFn)] = .ok [(nm "h", abFn)] ∧
    importOrder abFn (.ok [nm "a", nm "b"]) ∧
    callOrder baFn [(nm "a", a1 "x"), (nm "b", a1 "y")] (.ok [nm "y", nm "x"]) := by
  refine ⟨by decide +kernel, ab_order, ?_⟩
  rw [callOrder, if_neg (by decide +kernel), if_pos (by decide +kernel)]
  exact ⟨key_weak _ _, by decide +kernel, by decide +kernel⟩

/-- Different widths and different results are accepted too. -/
theorem width_wrong : collect [] [(nm "h", abFn), (nm "h", wideFn)] = .ok [(nm "h", abFn)] ∧
    (abFn.retWidth, wideFn.retWidth) = (0, 16) := by
  refine ⟨by decide +kernel, rfl⟩

theorem not_DescribesClaim : ¬ DescribesClaim := by
  intro h
  have := h _ _ (fun e he => by
      rcases List.mem_cons.1 he with rfl | he
      · exact ⟨_, ab_reach, by simp⟩
      · rcases List.mem_cons.1 he with rfl | he
        · exact ⟨_, wide_reach, by simp⟩
        · simp at he) width_wrong.1 (nm "h") abFn wideFn _ (by simp) ⟨_, ab_order, rfl⟩ (by simp) rfl
  have h3 := this.2.2.1
  revert h3
  decide +kernel

/-! ### Two generators in Python -/

theorem step_ports {g g' : Gen} {o : Op} (hi : Inv g) (h : step g o = .ok g') {f : Name} {F : Fn}
    (hF : (f, F) ∈ g.funcs) : ∃ F', (f, F') ∈ g'.funcs ∧ F'.kind = F.kind ∧
      ∀ n ∈ Map.keys F.ports, n ∈ Map.keys F'.ports := by
  have hem : ∀ n k ix, g' = ⟨emplace n (newFn k) g.funcs, ix⟩ →
      ∃ F', (f, F') ∈ g'.funcs ∧ F'.kind = F.kind ∧ ∀ n ∈ Map.keys F.ports, n ∈ Map.keys F'.ports := by
    rintro n k ix rfl
    exact ⟨F, (mem_emplace hi.sorted).2 (Or.inl hF), rfl, fun _ h => h⟩
  have hw : ∀ n k, withFn g n k = .ok g' →
      (∀ G G', k G = .ok G' → G'.kind = G.kind ∧ ∀ n ∈ Map.keys G.ports, n ∈ Map.keys G'.ports) →
      ∃ F', (f, F') ∈ g'.funcs ∧ F'.kind = F.kind ∧ ∀ n ∈ Map.keys F.ports, n ∈ Map.keys F'.ports := by
    intro n k h hk
    obtain ⟨G, G', hG, hG', rfl⟩ := withFn_spec h
    by_cases e : f = n
    · subst e
      have := acc_unique hi.sorted hG hF
      subst this
      refine ⟨G', ?_, hk _ _ hG'⟩
      simp only [setFn, List.mem_map]
      exact ⟨(f, G), hF, by simp⟩
    · refine ⟨F, ?_, rfl, fun _ h => h⟩
      simp only [setFn, List.mem_map]
      exact ⟨(f, F), hF, by simp [e]⟩
  cases o with
  | function n => exact hem _ _ _ (create_spec h).2
  | task n => exact hem _ _ _ (create_spec h).2
  | dpi n => exact hem _ _ _ (create_spec h).2
  | builtin n => exact hem _ _ _ (createBuiltin_spec h).2
  | input f n w s =>
    refine hw _ _ h fun G G' h => ?_
    cases h
    exact ⟨rfl, fun k hk => by simp only [addPort, keys_emplace, mem_insKey]; exact Or.inr hk⟩
  | output f n w s =>
    refine hw _ _ h fun G G' h => ?_
    split at h
    · cases h
      exact ⟨rfl, fun k hk => by simp only [addPort, keys_emplace, mem_insKey]; exact Or.inr hk⟩
    · cases h
  | order f l =>
    exact hw _ _ h fun G G' h => by obtain ⟨rfl, _⟩ := setOrdering_spec h; exact ⟨rfl, fun _ h => h⟩
  | orderIndex f l =>
    exact hw _ _ h fun G G' h => by obtain ⟨rfl, _⟩ := setOrdering_spec h; exact ⟨rfl, fun _ h => h⟩
  | ret f w s =>
    refine hw _ _ h fun G G' h => ?_
    simp only [placeReturn] at h
    split at h
    · cases h; exact ⟨rfl, fun _ h => h⟩
    · split at h
      · cases h
      · split at h
        · cases h
        · cases h; exact ⟨rfl, fun _ h => h⟩
  | returnWidth f w =>
    refine hw _ _ h fun G G' h => ?_
    split at h
    · cases h; exact ⟨rfl, fun _ h => h⟩
    · cases h
  | isContext f b =>
    refine hw _ _ h fun G G' h => ?_
    split at h
    · cases h; exact ⟨rfl, fun _ h => h⟩
    · cases h
  | isPure f b =>
    refine hw _ _ h fun G G' h => ?_
    split at h
    · cases h; exact ⟨rfl, fun _ h => h⟩
    · cases h

theorem run_ports : ∀ (os : List Op) {g g' : Gen}, Inv g → run g os = .ok g' → ∀ {f : Name} {F : Fn},
    (f, F) ∈ g.funcs → ∃ F', (f, F') ∈ g'.funcs ∧ F'.kind = F.kind ∧
      ∀ n ∈ Map.keys F.ports, n ∈ Map.keys F'.ports
  | [], g, g', _, h, f, F, hF => by
    simp only [run, Res.ok.injEq] at h; subst h; exact ⟨F, hF, rfl, fun _ h => h⟩
  | o :: os, g, g', hi, h, f, F, hF => by
    simp only [run, Res.bind_eq_ok] at h
    obtain ⟨g1, h1, h⟩ := h
    obtain ⟨F1, hF1, hk1, hh1⟩ := step_ports hi h1 hF
    obtain ⟨F2, hF2, hk2, hh2⟩ := run_ports os (step_inv hi h1) h hF1
    exact ⟨F2, hF2, hk2.trans hk1, fun x hx => hh2 x (hh1 x hx)⟩

/-- A declared function has no ports yet. -/
theorem declare_spec {g g' : Gen} {f : Name} {w : Nat} (hi : Inv g)
    (h : run g [.dpi f, .returnWidth f w] = .ok g') :
    Inv g' ∧ ∃ F, (f, F) ∈ g'.funcs ∧ F.kind = .dpi ∧ F.ports = [] := by
  have hi' := run_inv _ hi h
  refine ⟨hi', ?_⟩
  simp only [run, Res.bind_eq_ok, Res.ok.injEq] at h
  obtain ⟨g1, h1, g2, h2, rfl⟩ := h
  have hi1 := step_inv hi h1
  obtain ⟨hn, e⟩ := create_spec h1
  have hm : (f, newFn .dpi) ∈ g1.funcs := by
    rw [e]; exact (mem_emplace hi.sorted).2 (Or.inr ⟨hn, rfl⟩)
  obtain ⟨F, F', hF, hF', rfl⟩ := withFn_spec h2
  have := acc_unique hi1.sorted hF hm
  subst this
  simp only [newFn, if_true, Res.ok.injEq] at hF'
  subst hF'
  refine ⟨{ newFn .dpi with retWidth := w }, ?_, rfl, rfl⟩
  simp only [setFn, List.mem_map]
  exact ⟨(f, newFn .dpi), hm, by simp [newFn]⟩

/-- **A DPI function with arguments that two generators call cannot be imported**: the second
generator gets a declaration without ports, and the call itself goes to the first generator. -/
theorem second_refused {s s1 s2 : Py} {a b g1 g2 : Nat} {f : Name} {names : List Name} {w : Nat}
    {args1 args2 : List Arg} {c1 c2 : Call} (hi : ∀ k, Inv (s.gens k)) (hc : Map.find s.cache f = none)
    (hab : a ≠ b) (ha : f ∉ Map.keys (s.gens a).funcs) (hb : f ∉ Map.keys (s.gens b).funcs)
    (hn : names ≠ []) (hargs : args1 ≠ [])
    (h1 : pyCall s a f names w args1 = .ok (s1, c1, g1))
    (h2 : pyCall s1 b f names w args2 = .ok (s2, c2, g2)) :
    g2 = a ∧ (∀ k, Inv (s2.gens k)) ∧ ∀ ds, (∀ e ∈ ds, FnOk e.2) → (∀ e ∈ (s2.gens a).funcs, e ∈ ds) →
      (∀ e ∈ (s2.gens b).funcs, e ∈ ds) → ¬ ∃ acc, collect [] ds = .ok acc := by
  have hba : b ≠ a := fun e => hab e.symm
  simp only [pyCall, hc] at h1
  rw [if_neg (by rw [Map.has_iff]; exact ha)] at h1
  simp only [Res.bind_eq_ok, Res.ok.injEq, Prod.mk.injEq] at h1
  obtain ⟨gA, hA, gA', hA', _, _, rfl, _, _⟩ := h1
  obtain ⟨iA, FA, hFA, kA, _⟩ := declare_spec (hi a) hA
  have iA' := run_inv _ iA hA'
  -- the first function has a port
  have hport : ∃ F, (f, F) ∈ gA'.funcs ∧ F.kind = .dpi ∧ F.ports ≠ [] := by
    obtain ⟨n, ns, rfl⟩ : ∃ n ns, names = n :: ns := by
      cases names with
      | nil => exact absurd rfl hn
      | cons n ns => exact ⟨n, ns, rfl⟩
    obtain ⟨x, xs, rfl⟩ : ∃ x xs, args1 = x :: xs := by
      cases args1 with
      | nil => exact absurd rfl hargs
      | cons x xs => exact ⟨x, xs, rfl⟩
    simp only [List.map_cons, List.zip_cons_cons, inputs, List.cons_append, run, Res.bind_eq_ok] at hA'
    obtain ⟨g3, h3, hA'⟩ := hA'
    have i3 := step_inv iA h3
    obtain ⟨G, G', hG, hG', rfl⟩ := withFn_spec h3
    have := acc_unique iA.sorted hG hFA
    subst this
    cases hG'
    obtain ⟨F, hF, hk, hp⟩ := run_ports _ i3 hA' (f := f) (F := addPort G n ⟨x.width, x.signed, .inp⟩) (by
      simp only [setFn, List.mem_map]
      exact ⟨(f, G), hG, by simp⟩)
    refine ⟨F, hF, hk.trans kA, fun e => ?_⟩
    have := hp n (by simp only [addPort, keys_emplace, mem_insKey]; simp)
    rw [e] at this
    simp [Map.keys] at this
  obtain ⟨FA', hFA', kA', pA'⟩ := hport
  have hcache : Map.find (Map.emplace s.cache f (names, a)) f = some (names, a) := by
    rw [Map.find_emplace, if_pos rfl, hc]; rfl
  simp only [pyCall, hcache, if_neg hba] at h2
  rw [if_neg (by rw [Map.has_iff]; exact hb)] at h2
  simp only [Res.bind_eq_ok, Res.ok.injEq, Prod.mk.injEq] at h2
  obtain ⟨gB, hB, _, _, rfl, _, rfl⟩ := h2
  obtain ⟨iB, FB, hFB, kB, pB⟩ := declare_spec (hi b) hB
  refine ⟨rfl, fun k => ?_, fun ds ok hda hdb ⟨acc, hacc⟩ => ?_⟩
  · simp only
    split
    · exact iB
    · split
      · exact iA'
      · exact hi k
  simp only [if_neg hab, if_true] at hda hdb
  obtain ⟨hs, _, _, hag⟩ := collect_spec ds (show Sorted [] from List.Pairwise.nil) ok hacc
  obtain ⟨R, hR, e1⟩ := hag f FA' (hda _ hFA') kA'
  obtain ⟨R', hR', e2⟩ := hag f FB (hdb _ hFB) kB
  have := acc_unique hs hR hR'
  subst this
  have l1 : R.ports.length = FA'.ports.length := by
    rcases e1 with e | e
    · rw [e]
    · exact e.1
  have l2 : R.ports.length = FB.ports.length := by
    rcases e2 with e | e
    · rw [e]
    · exact e.1
  rw [pB] at l2
  exact pA' (List.length_eq_zero_iff.1 (by rw [← l1, l2]; rfl))

theorem not_SharedClaim : ¬ SharedClaim := by
  intro h
  have e1 : ∃ s1 c1 g1, pyCall ⟨fun _ => empty, []⟩ 0 (nm "h") [nm "a"] 0 [a1 "x"] = .ok (s1, c1, g1) ∧
      ∃ s2 c2 g2, pyCall s1 1 (nm "h") [nm "a"] 0 [a1 "y"] = .ok (s2, c2, g2) := by
    refine ⟨_, _, _, rfl, _, _, _, rfl⟩
  obtain ⟨s1, c1, g1, h1, s2, c2, g2, h2⟩ := e1
  obtain ⟨acc, hacc⟩ := h _ 0 1 (nm "h") [nm "a"] 0 _ _ s1 s2 c1 c2 g1 g2 rfl (by decide) h1 h2
  have key := second_refused (s := ⟨fun _ => empty, []⟩) (fun _ => empty_inv) rfl
    (show (0 : Nat) ≠ 1 by decide) (by simp [empty, Map.keys]) (by simp [empty, Map.keys])
    (by simp) (by simp) h1 h2
  refine key.2.2 _ (fun e he => ?_) (fun e he => List.mem_append_left _ he)
    (fun e he => List.mem_append_right _ he) ⟨acc, hacc⟩
  rcases List.mem_append.1 he with he | he
  · exact (key.2.1 _).fns e.1 e.2 he
  · exact (key.2.1 _).fns e.1 e.2 he

/-- The hypotheses of `describes_partial` are met by two functions that are not equal. -/
example : Design [(nm "h", abFn), (nm "h", baFn)] ∧
    collect [] [(nm "h", abFn), (nm "h", baFn)] = .ok [(nm "h", abFn)] ∧
    IsImport (nm "h") abFn ⟨.none, .void, nm "h",
      [⟨.inp, .byte, false, nm "a"⟩, ⟨.inp, .byte, false, nm "b"⟩]⟩ := by
  refine ⟨fun e he => ?_, order_wrong.1, ⟨_, ab_order, by decide +kernel⟩⟩
  rcases List.mem_cons.1 he with rfl | he
  · exact ⟨_, ab_reach, by simp⟩
  · rcases List.mem_cons.1 he with rfl | he
    · exact ⟨_, ba_reach, by simp⟩
    · simp at he

/-- Another direction is refused. -/
example : collect [] [(nm "h", abFn), (nm "h",
    { abFn with ports := [(nm "a", ⟨8, false, .out⟩), (nm "b", ⟨8, false, .inp⟩)] })] = .throw .var := by
  decide +kernel

end Kratos.Func
