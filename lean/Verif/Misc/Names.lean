import Verif.Base

/-!
# C52: accepted names

`is_valid_variable_name` is the only check made when a variable, generator, interface or enumeration is created.
-/

namespace Kratos.Names

/-- The set built by `initialize_keywords` (src/syntax.cc:11-266), in source order. -/
def codeKeywords : List String :=
  ["accept_on", "alias", "always", "always_comb", "always_ff", "always_latch", "and", "assert", "assign",
   "assume", "automatic", "before", "begin", "bind", "bins", "binsof", "bit", "break", "buf", "bufif0",
   "bufif1", "byte", "case", "casex", "casez", "cell", "chandle", "checker", "class", "clocking", "cmos",
   "config", "const", "constraint", "context", "continue", "cover", "covergroup", "coverpoint", "cross",
   "deassign", "default", "defparam", "design", "disable", "dist", "do", "edge", "else", "end", "endcase",
   "endchecker", "endclass", "endclocking", "endconfig", "endfunction", "endgenerate", "endgroup",
   "endinterface", "endmodule", "endpackage", "endprimitive", "endprogram", "endproperty", "endspecify",
   "endsequence", "endtable", "endtask", "enum", "event", "eventually", "expect", "export", "extends",
   "extern", "final", "first_match", "for", "force", "foreach", "forever", "fork", "forkjoin", "function",
   "generate", "genvar", "global", "highz0", "highz1", "if", "iff", "ifnone", "ignore_bins", "illegal_bins",
   "implements", "implies", "import", "incdir", "include", "initial", "inout", "input", "inside", "instance",
   "int", "integer", "interconnect", "interface", "intersect", "join", "join_any", "join_none", "large",
   "let", "liblist", "library", "local", "localparam", "logic", "longint", "macromodule", "matches",
   "medium", "modport", "module", "nand", "negedge", "nettype", "new", "nexttime", "nmos", "nor",
   "noshowcancelled", "not", "notif0", "notif1", "null", "or", "output", "package", "packed", "parameter",
   "pmos", "posedge", "primitive", "priority", "program", "property", "protected", "pull0", "pull1",
   "pulldown", "pullup", "pulsestyle_ondetect", "pulsestyle_onevent", "pure", "rand", "randc", "randcase",
   "randsequence", "rcmos", "real", "realtime", "ref", "reg", "reject_on", "release", "repeat", "restrict",
   "return", "rnmos", "rpmos", "rtran", "rtranif0", "rtranif1", "s_always", "s_eventually", "s_nexttime",
   "s_until", "s_until_with", "scalared", "sequence", "shortint", "shortreal", "showcancelled", "signed",
   "small", "soft", "solve", "specify", "specparam", "static", "string", "strong", "strong0", "strong1",
   "struct", "super", "supply0", "supply1", "sync_accept_on", "sync_reject_on", "table", "tagged", "task",
   "this", "throughout", "time", "timeprecision", "timeunit", "tran", "tranif0", "tranif1", "tri", "tri0",
   "tri1", "triand", "trior", "trireg", "type", "typedef", "union", "unique", "unique0", "unsigned", "until",
   "until_with", "untyped", "use", "uwire", "var", "vectored", "virtual", "void", "wait", "wait_order",
   "wand", "weak", "weak0", "weak1", "while", "wildcard", "wire", "with", "within", "wor", "xnor", "xor"]

/-- `is_valid_variable_name` (src/syntax.cc:268-271). -/
def isValidVariableName (n : String) : Bool := !codeKeywords.contains n

/-- `Var::Var` (src/expr.cc:872-873), `Enum::Enum` (src/expr.cc:2038), `Generator::Generator`
(src/generator.cc:69) and `Generator::interface` (src/generator.cc:750): the name check. -/
def checkName (n : String) : Res Unit := if isValidVariableName n then .ok () else .throw .user

/-! ### Specification -/

/-- The reserved words of SystemVerilog: IEEE 1800-2017 Annex B, Table B.1, grouped by length. -/
def reserved : List String :=
  ["do", "if", "or", "and", "bit", "buf", "end", "for", "iff", "int", "let", "new", "nor", "not", "ref",
   "reg", "tri", "use", "var", "wor", "xor", "bind", "bins", "byte", "case", "cell", "cmos", "dist", "edge",
   "else", "enum", "fork", "join", "nand", "nmos", "null", "pmos", "pure", "rand", "real", "soft", "task",
   "this", "time", "tran", "tri0", "tri1", "type", "void", "wait", "wand", "weak", "wire", "with", "xnor",
   "alias", "begin", "break", "casex", "casez", "class", "const", "cover", "cross", "event", "final",
   "force", "inout", "input", "large", "local", "logic", "pull0", "pull1", "randc", "rcmos", "rnmos",
   "rpmos", "rtran", "small", "solve", "super", "table", "trior", "union", "until", "uwire", "weak0",
   "weak1", "while", "always", "assert", "assign", "assume", "before", "binsof", "bufif0", "bufif1",
   "config", "design", "expect", "export", "extern", "genvar", "global", "highz0", "highz1", "ifnone",
   "import", "incdir", "inside", "medium", "module", "notif0", "notif1", "output", "packed", "pullup",
   "repeat", "return", "signed", "static", "string", "strong", "struct", "tagged", "triand", "trireg",
   "unique", "within", "chandle", "checker", "context", "default", "disable", "endcase", "endtask",
   "extends", "foreach", "forever", "implies", "include", "initial", "integer", "liblist", "library",
   "longint", "matches", "modport", "negedge", "nettype", "package", "posedge", "program", "release",
   "s_until", "specify", "strong0", "strong1", "supply0", "supply1", "tranif0", "tranif1", "typedef",
   "unique0", "untyped", "virtual", "clocking", "continue", "deassign", "defparam", "endclass", "endgroup",
   "endtable", "forkjoin", "function", "generate", "instance", "join_any", "nexttime", "priority",
   "property", "pulldown", "randcase", "realtime", "restrict", "rtranif0", "rtranif1", "s_always",
   "scalared", "sequence", "shortint", "timeunit", "unsigned", "vectored", "wildcard", "accept_on",
   "always_ff", "automatic", "endconfig", "endmodule", "interface", "intersect", "join_none", "parameter",
   "primitive", "protected", "reject_on", "shortreal", "specparam", "constraint", "covergroup", "coverpoint",
   "endchecker", "endpackage", "endprogram", "endspecify", "eventually", "implements", "localparam",
   "s_nexttime", "throughout", "until_with", "wait_order", "always_comb", "endclocking", "endfunction",
   "endgenerate", "endproperty", "endsequence", "first_match", "ignore_bins", "macromodule", "always_latch",
   "endinterface", "endprimitive", "illegal_bins", "interconnect", "randsequence", "s_eventually",
   "s_until_with", "showcancelled", "timeprecision", "sync_accept_on", "sync_reject_on", "noshowcancelled",
   "pulsestyle_onevent", "pulsestyle_ondetect"]

def letter (c : Char) : Bool := ('a' ≤ c && c ≤ 'z') || ('A' ≤ c && c ≤ 'Z') || c == '_'
def identChar (c : Char) : Bool := letter c || ('0' ≤ c && c ≤ '9') || c == '$'

/-- A simple identifier (IEEE 1800-2017, 5.6) that is not a reserved word. -/
def Legal (n : String) : Prop :=
  n ∉ reserved ∧ (∃ c cs, n.toList = c :: cs ∧ letter c = true ∧ cs.all identChar = true)

/-- Full claim of C52. -/
def NameClaim (n : String) : Prop := checkName n = .ok () → Legal n

/-! ### Proofs -/

theorem keywords_sub : ∀ n ∈ codeKeywords, n ∈ reserved := by decide +kernel
theorem reserved_sub : ∀ n ∈ reserved, n ∈ codeKeywords := by decide +kernel

/-- **C52, keywords**: for every string, the check succeeds exactly when the string is not a reserved word. -/
theorem accepted_iff (n : String) : checkName n = .ok () ↔ n ∉ reserved := by
  have h : isValidVariableName n = true ↔ n ∉ reserved := by
    rw [isValidVariableName, Bool.not_eq_true', ← Bool.not_eq_true, List.contains_iff_mem]
    exact not_congr ⟨keywords_sub n, reserved_sub n⟩
  unfold checkName
  rw [← h]
  cases isValidVariableName n <;> simp

/-- **C52, refusal**: a reserved word is refused with a user exception. -/
theorem refused_iff (n : String) : checkName n = .throw .user ↔ n ∈ reserved := by
  have h := accepted_iff n
  unfold checkName at *
  cases hv : isValidVariableName n <;> simp [hv] at h ⊢ <;> exact h

/-- **C52, partial**: an accepted name is no reserved word; if moreover it has the shape of an identifier it is
legal. Missing: the shape is not checked (`not_NameClaim`). -/
theorem accepted_partial (n : String) (h : checkName n = .ok ())
    (hs : ∃ c cs, n.toList = c :: cs ∧ letter c = true ∧ cs.all identChar = true) : Legal n :=
  ⟨(accepted_iff n).1 h, hs⟩

/-- The full claim is false: any text that is not a reserved word is accepted, for instance with blanks. -/
theorem not_NameClaim : ¬ ∀ n, NameClaim n := by
  intro h
  obtain ⟨_, c, cs, h1, _, h3⟩ := h "a b" ((accepted_iff _).2 (by decide +kernel))
  have e : "a b".toList = ['a', ' ', 'b'] := by decide
  rw [e] at h1
  injection h1 with _ h1
  subst h1
  revert h3
  decide

/-- The empty name is accepted too. -/
theorem empty_name_accepted : checkName "" = .ok () ∧ ¬ Legal "" := by
  refine ⟨(accepted_iff _).2 (by decide +kernel), ?_⟩
  rintro ⟨_, c, cs, h, _⟩
  have e : "".toList = [] := by decide
  rw [e] at h
  cases h

/-- Case matters, as in SystemVerilog. -/
example : checkName "Always" = .ok () ∧ checkName "always" = .throw .user :=
  ⟨(accepted_iff _).2 (by decide +kernel), (refused_iff _).2 (by decide +kernel)⟩

example : Legal "clk_0$en" := accepted_partial _ ((accepted_iff _).2 (by decide +kernel))
  ⟨'c', "lk_0$en".toList, by decide, by decide, by decide⟩

/-! ### Histories of naming calls -/

/-- `Generator::var`/`port`/… with a new name, and `Generator::rename_var` (src/generator.cc:585-594), which
does not repeat the check. Each variable is a position in the list. -/
inductive NameOp where
  | declare (n : String)
  | rename (old new : String)

/-- The names in use after one call. Clashes of names are the subject of C39; here a rename replaces the
name wherever it stands. -/
def stepNames (ns : List String) : NameOp → List String
  | .declare n => match checkName n with
    | .ok _ => ns ++ [n]
    | _ => ns
  | .rename o n => ns.map fun x => if x = o then n else x

def runNames : List NameOp → List String := List.foldl stepNames []

/-- **C52, histories**: as long as no variable is renamed, no history of declarations leads to a reserved
word. -/
theorem declared_names_ok (ops : List NameOp) (h : ∀ o ∈ ops, ∃ n, o = .declare n) : ∀ n ∈ runNames ops, n ∉ reserved := by
  have key : ∀ (ops : List NameOp) (ns : List String), (∀ o ∈ ops, ∃ n, o = .declare n) → (∀ n ∈ ns, n ∉ reserved) →
      ∀ n ∈ ops.foldl stepNames ns, n ∉ reserved := by
    intro ops
    induction ops with
    | nil => intro ns _ h; exact h
    | cons o ops ih =>
      intro ns ho hn
      refine ih _ (fun o h => ho o (List.mem_cons_of_mem _ h)) ?_
      obtain ⟨m, rfl⟩ := ho o (List.mem_cons_self ..)
      intro n hm
      simp only [stepNames] at hm
      split at hm
      · rename_i e
        rcases List.mem_append.1 hm with h | h
        · exact hn n h
        · rw [List.mem_singleton] at h; subst h; exact (accepted_iff n).1 e
      · exact hn n hm
  exact key ops [] h (fun _ h => nomatch h)

/-- Renaming is not checked: a variable may end up under a reserved word. -/
theorem rename_unchecked : runNames [.declare "a", .rename "a" "wire"] = ["wire"] ∧ "wire" ∈ reserved := by
  refine ⟨?_, by decide +kernel⟩
  have h : checkName "a" = .ok () := (accepted_iff _).2 (by decide +kernel)
  simp [runNames, stepNames, h]

end Kratos.Names
