import Verif.Pass.Replace
import Verif.Pass.Kinds

/-!
# Connecting instances (property C76)

Models `decouple_generator_ports` (`GeneratorPortVisitor`, src/transform.cc:317-482) and `create_module_instantiation`
(`ModuleInstantiationVisitor`, src/transform.cc:231-259, `InstantiationStmt::process_port`, src/stmt.cc:888-954) for one parent
generator and the ports of its children.

Simplifications: the statements are those of the parent; statements inside a child that read its own output have their left-hand side
in the child and are filtered out by both passes (src/transform.cc:414-417, src/stmt.cc:681-693).  Interface ports and packed structs
are left out.  The new variable of a port gets an identity that nothing mentions (`get_unique_variable_name` is modelled in
`Verif.Misc.Names`).
-/

namespace Kratos.Decouple

open Kratos.Replace

/-! ### Model -/

inductive Dir where
  | inp | out | inout
  deriving DecidableEq, Repr

/-- What the passes ask about signals.  `gen`: the generator of a variable (0 is the parent); `pgen`: of a parameter; `xgen`: of an
expression that is neither a variable nor part of one (`Expr::set_parent`; never asked for where it matters); `cgen`: of a constant
object (a `const k` is the object `k`, whose number the operators give): the parent of the generator that it was last assigned in, if
there is one (`Const::add_sink`, src/expr.cc:1136-1147), else `const_gen`.  So for a constant that is assigned once, to a port of a
child, it is 0.  `port`: is it a port.
`special`: the cast used for a clock, reset or clock-enable port (src/transform.cc:382-389). -/
structure Info where
  gen : Nat → Nat
  pgen : Nat → Nat
  cgen : Int → Option Nat
  xgen : E → Nat
  port : Nat → Bool
  special : Nat → Option Nat

/-- `Var::generator()`: slices and casts belong where their variable does (src/expr.hh:284, src/expr.cc:1017-1019). -/
def genOf (I : Info) : E → Option Nat
  | .var v => some (I.gen v)
  | .const k => I.cgen k
  | .param p => some (I.pgen p)
  | .sl e _ _ => genOf I e
  | .ix e _ => genOf I e
  | .cast _ e => genOf I e
  | e => some (I.xgen e)

mutual
/-- The variables to which `add_source` is passed down from what stands on the left, src/expr.cc:1074, 1241-1245, 1757-1760. -/
def E.sourceOf (t : Nat) : E → Bool
  | .var v => v == t
  | .sl e _ _ => E.sourceOf t e
  | .ix e _ => E.sourceOf t e
  | .cast _ e => E.sourceOf t e
  | .cat xs => Es.sourceOf t xs
  | _ => false
def Es.sourceOf (t : Nat) : Es → Bool
  | .nil => false
  | .cons x xs => E.sourceOf t x || Es.sourceOf t xs
end

/-- An `AssignStmt` of the parent.  `top`: directly in the generator.  `kind`, `shown` as in `Replace.St`.  `src`, `snk`: the variables
in whose `sources_`, `sinks_` it is registered.  `listed`: it is still in the generator's list of statements, so that it is printed. -/
structure Asn where
  top : Bool
  kind : Kind
  left : E
  right : E
  shown : E
  src : List Nat
  snk : List Nat
  listed : Bool
  deriving DecidableEq, Repr

/-- `correct_src_type` on what is below a cast, src/transform.cc:347-349. -/
def plain (I : Info) : E → Bool
  | .var v => !I.port v || I.gen v == 0
  | .const _ => true
  | .param _ => true
  | _ => false

/-- `correct_src_type`, src/transform.cc:342-350. -/
def okSrc (I : Info) : E → Bool
  | .cast _ e => plain I e
  | e => plain I e

/-- `VarType::Slice`. -/
def isSlice : E → Bool
  | .sl _ _ _ => true
  | .ix _ _ => true
  | _ => false

/-- An input port may be connected to this, src/transform.cc:364-367. -/
def okIn (I : Info) (e : E) : Bool := okSrc I e || (isSlice e && genOf I e == some 0)

/-- An output port may be connected to this, src/transform.cc:425-436. -/
def okOut (I : Info) (e : E) : Bool := okSrc I e && genOf I e == some 0

/-- The new variable as it is used: cast if the port is special, src/transform.cc:382-391. -/
def newVar (I : Info) (q w : Nat) : E :=
  match I.special q with
  | some k => .cast k (.var w)
  | none => .var w

/-- One turn of the loop of `move_src_to`, src/expr.cc:1620-1634, and clearing the sources, 1636. -/
def srcOne (q w : Nat) (n : E) (s : Asn) : Res Asn :=
  if q ∈ s.src then (setSide q n s.left).map fun l => { s with left := l, src := w :: s.src.filter (· ≠ q) } else .ok s

/-- `move_src_to` with `keep_connection`, src/expr.cc:1615-1644: `port.assign(new_var)` is added to the parent. -/
def moveSrc (I : Info) (q w : Nat) (ss : List Asn) : Res (List Asn) :=
  (Kinds.mapRes (srcOne q w (newVar I q w)) ss).map fun ss =>
    ss ++ [⟨true, .assign, .var q, newVar I q w, newVar I q w, [q], [w], true⟩]

/-- One turn of the loop of `move_sink_to`, src/expr.cc:1651-1666, and clearing the sinks, 1668. -/
def snkOne (q w : Nat) (s : Asn) : Res Asn :=
  if q ∈ s.snk then
    (setSide q (.var w) s.right).map fun r =>
      { s with right := r, shown := if s.kind = .assign ∨ s.right.isExpr = true then r else s.shown,
               snk := w :: s.snk.filter (· ≠ q) }
  else .ok s

/-- `move_sink_to` with `keep_connection`, src/expr.cc:1646-1677: `new_var.assign(port)` is added. -/
def moveSnk (q w : Nat) (ss : List Asn) : Res (List Asn) :=
  (Kinds.mapRes (snkOne q w) ss).map fun ss => ss ++ [⟨true, .assign, .var w, .var q, .var q, [w], [q], true⟩]

/-- The statement that a port keeps as its connection is taken out of the list. -/
def unlist (p : Asn → Bool) (ss : List Asn) : List Asn := ss.map fun s => if p s then { s with listed := false } else s

/-- `process_port` for an input, src/transform.cc:354-403.  The statement is taken out of the list of the generator of its right-hand
side (369), which is the parent's list only if that is the parent's. -/
def processIn (I : Info) (q w : Nat) (ss : List Asn) : Res (List Asn) :=
  match ss.filter (fun s => decide (q ∈ s.src)) with
  | [s] =>
    if s.top = true ∧ s.left = .var q ∧ okIn I s.right = true then
      .ok (if genOf I s.right = some 0 then unlist (fun x => decide (q ∈ x.src)) ss else ss)
    else moveSrc I q w ss
  | _ => moveSrc I q w ss

/-- `process_port` for an output, src/transform.cc:404-466. -/
def processOut (I : Info) (q w : Nat) (ss : List Asn) : Res (List Asn) :=
  match ss.filter (fun s => decide (q ∈ s.snk)) with
  | [] => .ok ss
  | [s] =>
    if s.top = true ∧ okOut I s.left = true ∧ s.right = .var q then .ok (unlist (fun x => decide (q ∈ x.snk)) ss)
    else moveSnk q w ss
  | _ => moveSnk q w ss

/-- `process_port`, src/transform.cc:352-470. -/
def process (I : Info) (d : Dir) (q w : Nat) (ss : List Asn) : Res (List Asn) :=
  match d with
  | .inp => processIn I q w ss
  | .out => processOut I q w ss
  | .inout => .throw .user

/-- `decouple_generator_ports` on the ports of the children, each with the identity its new variable would get. -/
def decouple (I : Info) : List (Nat × Dir × Nat) → List Asn → Res (List Asn)
  | [], ss => .ok ss
  | (q, d, w) :: ps, ss => (process I d q w ss).bind fun ss' => decouple I ps ss'

/-- `InstantiationStmt::process_port`, src/stmt.cc:888-943: the entry of the port mapping and the remaining statements.  The slices of
a port never have sources of their own (`VarSlice::add_source`, src/expr.cc:1757-1760, hands them to the variable), so the tests on
slices never fire. -/
def instPort (I : Info) (q : Nat) (d : Dir) (ss : List Asn) : Res (List (Nat × E) × List Asn) :=
  match d with
  | .inp =>
    match ss.filter (fun s => decide (q ∈ s.src) && genOf I s.right == some 0) with
    | [] => .throw .var
    | [s] => .ok ([(q, s.right)], unlist (fun s => decide (q ∈ s.src) && genOf I s.right == some 0) ss)
    | _ => .throw .var
  | .out =>
    match ss.filter (fun s => decide (q ∈ s.snk) && genOf I s.left == some 0) with
    | [] => .ok ([], ss)
    | [s] => .ok ([(q, s.left)], unlist (fun s => decide (q ∈ s.snk) && genOf I s.left == some 0) ss)
    | _ => .throw .user
  | .inout => .throw .user

/-- `ModuleInstantiationStmt` for all ports, src/stmt.cc:945-954. -/
def instantiate (I : Info) : List (Nat × Dir) → List Asn → Res (List (Nat × E) × List Asn)
  | [], ss => .ok ([], ss)
  | (q, d) :: ps, ss => (instPort I q d ss).bind fun r => (instantiate I ps r.2).map fun r' => (r.1 ++ r'.1, r'.2)

/-- Both passes: the port connections of the instances and the statements left in the parent. -/
def connect (I : Info) (ps : List (Nat × Dir × Nat)) (ss : List Asn) : Res (List (Nat × E) × List Asn) :=
  (decouple I ps ss).bind fun ss' => instantiate I (ps.map fun p => (p.1, p.2.1)) ss'

/-! ### Specification -/

/-- What the operators mean; the theorems hold for every meaning. -/
structure Ops (V : Type) where
  const : Int → V
  param : Nat → V
  sl : Nat → Nat → V → V
  ix : V → V → V
  un : Nat → V → V
  bin : Nat → V → V → V
  cat : List V → V
  ext : Nat → V → V
  dup : Nat → V → V
  ite : V → V → V → V
  cast : Nat → V → V
  call : Nat → List V → V

mutual
/-- The value of an expression when the signals have values `ρ`. -/
def ev {V : Type} (O : Ops V) (ρ : Nat → V) : E → V
  | .var v => ρ v
  | .const k => O.const k
  | .param k => O.param k
  | .sl e hi lo => O.sl hi lo (ev O ρ e)
  | .ix e i => O.ix (ev O ρ e) (ev O ρ i)
  | .un o a => O.un o (ev O ρ a)
  | .bin o a b => O.bin o (ev O ρ a) (ev O ρ b)
  | .cat xs => O.cat (evs O ρ xs)
  | .ext w a => O.ext w (ev O ρ a)
  | .dup k a => O.dup k (ev O ρ a)
  | .ite c a b => O.ite (ev O ρ c) (ev O ρ a) (ev O ρ b)
  | .cast k a => O.cast k (ev O ρ a)
  | .call f as => O.call f (evs O ρ as)
def evs {V : Type} (O : Ops V) (ρ : Nat → V) : Es → List V
  | .nil => []
  | .cons x xs => ev O ρ x :: evs O ρ xs
end

/-- The statements inside blocks: what they assign to and what is printed on their right, in order. -/
def inBlocks {V : Type} (O : Ops V) (ρ : Nat → V) : List Asn → List (V × V)
  | [] => []
  | s :: ss => if s.top then inBlocks O ρ ss else (ev O ρ s.left, ev O ρ s.shown) :: inBlocks O ρ ss

/-- Signal values `ρ` are those of the design: continuous assignments hold, and the blocks, whatever they are (`B`), accept what
their statements read and assign. -/
def Holds {V : Type} (O : Ops V) (B : List (V × V) → Prop) (ρ : Nat → V) (ss : List Asn) : Prop :=
  (∀ s ∈ ss, s.top = true → s.listed = true → ev O ρ s.left = ev O ρ s.shown) ∧ B (inBlocks O ρ ss)

/-- The connections of the instances hold: port and connected expression have the same value. -/
def Wired {V : Type} (O : Ops V) (ρ : Nat → V) (m : List (Nat × E)) : Prop := ∀ x ∈ m, ρ x.1 = ev O ρ x.2

/-- A design as it comes to the passes: everything is listed, statements print what they read, registered where they read and assign;
statements directly in the generator are assignments. -/
structure Start (ss : List Asn) : Prop where
  listed : ∀ s ∈ ss, s.listed = true
  shown : ∀ s ∈ ss, s.shown = s.right
  top : ∀ s ∈ ss, s.top = true → s.kind = .assign
  src : ∀ s ∈ ss, ∀ v ∈ s.src, E.sourceOf v s.left = true
  snk : ∀ s ∈ ss, ∀ v ∈ s.snk, s.right.sinkOf v = true ∨ s.left.indexSink v = true

/-- `v` occurs nowhere in the statements. -/
def Fresh (v : Nat) (ss : List Asn) : Prop := ∀ s ∈ ss, ¬ Mentions v s.left ∧ ¬ Mentions v s.right ∧ v ∉ s.src ∧ v ∉ s.snk

/-- The ports are different ports of children; the new variables are new, different, and belong to the parent. -/
structure Ports (I : Info) (ps : List (Nat × Dir × Nat)) (ss : List Asn) : Prop where
  child : ∀ p ∈ ps, I.gen p.1 ≠ 0 ∧ I.port p.1 = true
  nodup : (ps.map fun p => p.1).Nodup
  fresh : ∀ p ∈ ps, Fresh p.2.2 ss ∧ I.gen p.2.2 = 0 ∧ I.port p.2.2 = false
  news : (ps.map fun p => p.2.2).Nodup

/-! ### Proof: values -/

section
variable {V : Type} {O : Ops V} {ρ : Nat → V} {t : Nat} {n : E}

theorem ev_rebuild (hn : ev O ρ n = ρ t) : ∀ (e e' : E), rebuild t n e = some e' → ev O ρ e' = ev O ρ e
  | .var v, e', h => by
    rw [rebuild] at h; split at h
    · rename_i hv; subst hv; cases h; exact hn
    · cases h
  | .sl e hi lo, e', h => by
    simp only [rebuild, Option.map_eq_some_iff] at h
    obtain ⟨x, hx, rfl⟩ := h
    simp only [ev, ev_rebuild hn e x hx]
  | .ix e i, e', h => by
    simp only [rebuild, Option.map_eq_some_iff] at h
    obtain ⟨x, hx, rfl⟩ := h
    simp only [ev, ev_rebuild hn e x hx]
  | .const _, _, h => by cases h
  | .param _, _, h => by cases h
  | .un _ a, _, h => by cases h
  | .bin _ a b, _, h => by cases h
  | .cat xs, _, h => by cases h
  | .ext _ a, _, h => by cases h
  | .dup _ a, _, h => by cases h
  | .ite c a b, _, h => by cases h
  | .cast _ a, _, h => by cases h
  | .call _ xs, _, h => by cases h

theorem ev_getD (hn : ev O ρ n = ρ t) (e : E) : ev O ρ ((rebuild t n e).getD e) = ev O ρ e := by
  cases h : rebuild t n e with
  | none => rfl
  | some e' => exact ev_rebuild hn e e' h

theorem evs_replaceFirst (hn : ev O ρ n = ρ t) : ∀ xs : Es, evs O ρ (replaceFirst t n xs) = evs O ρ xs
  | .nil => rfl
  | .cons x xs => by
    rw [replaceFirst]; split
    · rename_i hx; subst hx; simp only [evs, ev, hn]
    · simp only [evs, evs_replaceFirst hn xs]

mutual
theorem ev_chg (hn : ev O ρ n = ρ t) : ∀ (e : E) (p : Pos), ev O ρ (chg t n p e) = ev O ρ e
  | .var v, p => by
    rw [chg]; split
    · rename_i h; rw [hn, ev, h.1]
    · rfl
  | .const _, _ => rfl
  | .param _, _ => rfl
  | .sl e hi lo, p => by
    rw [chg]; split
    · exact ev_getD hn _
    · rfl
  | .ix e i, p => by
    rw [chg]; split
    · exact ev_getD hn _
    · rfl
  | .un _ a, _ => by simp only [chg, ev, ev_chg hn a]
  | .bin _ a b, _ => by simp only [chg, ev, ev_chg hn a, ev_chg hn b]
  | .cat xs, _ => by simp only [chg, ev, evs_replaceFirst hn, evs_chgs hn xs]
  | .ext _ a, _ => by simp only [chg, ev, ev_chg hn a]
  | .dup _ a, _ => by simp only [chg, ev, ev_chg hn a]
  | .ite c a b, _ => by simp only [chg, ev, ev_chg hn a, ev_chg hn b, ev_chg hn c]
  | .cast _ a, _ => rfl
  | .call _ xs, _ => rfl
theorem evs_chgs (hn : ev O ρ n = ρ t) : ∀ xs : Es, evs O ρ (chgs t n xs) = evs O ρ xs
  | .nil => rfl
  | .cons x xs => by simp only [chgs, evs, ev_chg hn x, evs_chgs hn xs]
end

theorem rebuildOr_ok {e e' : E} (h : rebuildOr t n e = .ok e') : rebuild t n e = some e' := by
  rw [rebuildOr] at h
  cases hr : rebuild t n e with
  | none => rw [hr] at h; cases h
  | some x => rw [hr] at h; cases h; rfl

theorem map_ok {α β : Type} {x : Res α} {f : α → β} {b : β} (h : x.map f = .ok b) : ∃ a, x = .ok a ∧ f a = b := by
  cases x with
  | ok a => exact ⟨a, rfl, by cases h; rfl⟩
  | throw e => cases h
  | ub => cases h

theorem ev_castParent (hn : ev O ρ n = ρ t) : ∀ (e e' : E), castParent t n e = .ok e' → ev O ρ e' = ev O ρ e
  | .var v, e', h => by
    rw [castParent] at h; cases h
    split
    · rename_i hv; subst hv; exact hn
    · rfl
  | .const _, _, h => by cases h; rfl
  | .param _, _, h => by cases h; rfl
  | .call _ _, _, h => by cases h; rfl
  | .sl e hi lo, e', h => ev_rebuild hn _ _ (rebuildOr_ok h)
  | .ix e i, e', h => ev_rebuild hn _ _ (rebuildOr_ok h)
  | .cast k a, e', h => by
    rw [castParent] at h
    obtain ⟨a', h1, rfl⟩ := map_ok h
    simp only [ev, ev_castParent hn a a' h1]
  | .un o a, _, h => by cases h; exact ev_chg hn (.un o a) .operand
  | .bin o a b, _, h => by cases h; exact ev_chg hn (.bin o a b) .operand
  | .cat xs, _, h => by cases h; exact ev_chg hn (.cat xs) .operand
  | .ext w a, _, h => by cases h; exact ev_chg hn (.ext w a) .operand
  | .dup k a, _, h => by cases h; exact ev_chg hn (.dup k a) .operand
  | .ite c a b, _, h => by cases h; exact ev_chg hn (.ite c a b) .operand

/-- Replacing a variable by one with the same value changes no value, whatever is found and what not. -/
theorem ev_setSide (hn : ev O ρ n = ρ t) (e e' : E) (h : setSide t n e = .ok e') : ev O ρ e' = ev O ρ e := by
  cases e with
  | var v =>
    rw [setSide] at h; split at h
    · rename_i hv; subst hv; cases h; exact hn
    · cases h
  | const k => cases h
  | call f as => cases h
  | param k => cases h; rfl
  | sl e hi lo => exact ev_castParent hn (.sl e hi lo) e' h
  | ix e i => exact ev_castParent hn (.ix e i) e' h
  | cast k a => exact ev_castParent hn (.cast k a) e' h
  | un o a => exact ev_castParent hn (.un o a) e' h
  | bin o a b => exact ev_castParent hn (.bin o a b) e' h
  | cat xs => exact ev_castParent hn (.cat xs) e' h
  | ext w a => exact ev_castParent hn (.ext w a) e' h
  | dup k a => exact ev_castParent hn (.dup k a) e' h
  | ite c a b => exact ev_castParent hn (.ite c a b) e' h

mutual
theorem ev_frame {σ : Nat → V} {w : Nat} (h : ∀ v, v ≠ w → σ v = ρ v) : ∀ e : E, ¬ Mentions w e → ev O σ e = ev O ρ e
  | .var v, hm => h v fun hv => hm (hv ▸ .var)
  | .const _, _ => rfl
  | .param _, _ => rfl
  | .sl e _ _, hm => by simp only [ev, ev_frame h e fun x => hm (.sl x)]
  | .ix e i, hm => by simp only [ev, ev_frame h e fun x => hm (.ix x), ev_frame h i fun x => hm (.index x)]
  | .un _ a, hm => by simp only [ev, ev_frame h a fun x => hm (.un x)]
  | .bin _ a b, hm => by simp only [ev, ev_frame h a fun x => hm (.binL x), ev_frame h b fun x => hm (.binR x)]
  | .cat xs, hm => by simp only [ev, evs_frame h xs fun x => hm (.cat x)]
  | .ext _ a, hm => by simp only [ev, ev_frame h a fun x => hm (.ext x)]
  | .dup _ a, hm => by simp only [ev, ev_frame h a fun x => hm (.dup x)]
  | .ite c a b, hm => by
    simp only [ev, ev_frame h c fun x => hm (.cond x), ev_frame h a fun x => hm (.thn x), ev_frame h b fun x => hm (.els x)]
  | .cast _ a, hm => by simp only [ev, ev_frame h a fun x => hm (.cast x)]
  | .call _ xs, hm => by simp only [ev, evs_frame h xs fun x => hm (.call x)]
theorem evs_frame {σ : Nat → V} {w : Nat} (h : ∀ v, v ≠ w → σ v = ρ v) : ∀ xs : Es, ¬ MentionsL w xs → evs O σ xs = evs O ρ xs
  | .nil, _ => rfl
  | .cons x xs, hm => by simp only [evs, ev_frame h x fun y => hm (.head y), evs_frame h xs fun y => hm (.tail y)]
end

end

/-! ### Proof: what is mentioned -/

section
variable {t v : Nat} {n : E}

/-- References to other variables stay. -/
theorem rebuild_keeps (hv : v ≠ t) : ∀ (e e' : E), rebuild t n e = some e' → Mentions v e → Mentions v e'
  | .var u, e', h, hm => by
    rw [mentions_var] at hm; subst hm
    rw [rebuild, if_neg hv] at h; cases h
  | .sl e hi lo, e', h, hm => by
    simp only [rebuild, Option.map_eq_some_iff] at h
    obtain ⟨x, hx, rfl⟩ := h
    exact .sl (rebuild_keeps hv e x hx (mentions_sl.1 hm))
  | .ix e i, e', h, hm => by
    simp only [rebuild, Option.map_eq_some_iff] at h
    obtain ⟨x, hx, rfl⟩ := h
    exact (mentions_ix.1 hm).elim (fun h' => .ix (rebuild_keeps hv e x hx h')) .index
  | .const _, _, h, _ => by cases h
  | .param _, _, h, _ => by cases h
  | .un _ a, _, h, _ => by cases h
  | .bin _ a b, _, h, _ => by cases h
  | .cat xs, _, h, _ => by cases h
  | .ext _ a, _, h, _ => by cases h
  | .dup _ a, _, h, _ => by cases h
  | .ite c a b, _, h, _ => by cases h
  | .cast _ a, _, h, _ => by cases h
  | .call _ xs, _, h, _ => by cases h

theorem getD_keeps (hv : v ≠ t) (e : E) (hm : Mentions v e) : Mentions v ((rebuild t n e).getD e) := by
  cases h : rebuild t n e with
  | none => exact hm
  | some e' => exact rebuild_keeps hv e e' h hm

theorem replaceFirst_keeps (hv : v ≠ t) : ∀ xs : Es, MentionsL v xs → MentionsL v (replaceFirst t n xs)
  | .nil, h => h
  | .cons x xs, h => by
    rw [replaceFirst]; split
    · rename_i hx; subst hx
      exact (mentionsL_cons.1 h).elim (fun h' => absurd (mentions_var.1 h').symm hv) .tail
    · exact (mentionsL_cons.1 h).elim .head fun h' => .tail (replaceFirst_keeps hv xs h')

mutual
theorem chg_keeps (hv : v ≠ t) : ∀ (e : E) (p : Pos), Mentions v e → Mentions v (chg t n p e)
  | .var u, p, hm => by
    rw [mentions_var] at hm; subst hm
    rw [chg, if_neg (fun h => hv h.1)]; exact .var
  | .const _, _, hm => hm
  | .param _, _, hm => hm
  | .sl e hi lo, p, hm => by
    rw [chg]; split
    · exact getD_keeps hv _ hm
    · exact hm
  | .ix e i, p, hm => by
    rw [chg]; split
    · exact getD_keeps hv _ hm
    · exact hm
  | .un _ a, _, hm => by rw [chg]; exact .un (chg_keeps hv a _ (mentions_un.1 hm))
  | .bin _ a b, _, hm => by
    rw [chg]; exact (mentions_bin.1 hm).elim (fun h => .binL (chg_keeps hv a _ h)) fun h => .binR (chg_keeps hv b _ h)
  | .cat xs, _, hm => by rw [chg]; exact .cat (replaceFirst_keeps hv _ (chgs_keeps hv xs (mentions_cat.1 hm)))
  | .ext _ a, _, hm => by rw [chg]; exact .ext (chg_keeps hv a _ (mentions_ext.1 hm))
  | .dup _ a, _, hm => by rw [chg]; exact .dup (chg_keeps hv a _ (mentions_dup.1 hm))
  | .ite c a b, _, hm => by
    rw [chg]
    exact (mentions_ite.1 hm).elim (fun h => .cond (chg_keeps hv c _ h)) fun h =>
      h.elim (fun h => .thn (chg_keeps hv a _ h)) fun h => .els (chg_keeps hv b _ h)
  | .cast _ a, _, hm => hm
  | .call _ xs, _, hm => hm
theorem chgs_keeps (hv : v ≠ t) : ∀ xs : Es, MentionsL v xs → MentionsL v (chgs t n xs)
  | .nil, h => h
  | .cons x xs, h => by
    rw [chgs]; exact (mentionsL_cons.1 h).elim (fun h => .head (chg_keeps hv x _ h)) fun h => .tail (chgs_keeps hv xs h)
end

theorem castParent_keeps (hv : v ≠ t) : ∀ (e e' : E), castParent t n e = .ok e' → Mentions v e → Mentions v e'
  | .var u, e', h, hm => by
    rw [mentions_var] at hm; subst hm
    rw [castParent, if_neg hv] at h; cases h; exact .var
  | .const _, _, h, hm => by cases h; exact hm
  | .param _, _, h, hm => by cases h; exact hm
  | .call _ _, _, h, hm => by cases h; exact hm
  | .sl e hi lo, e', h, hm => rebuild_keeps hv _ _ (rebuildOr_ok h) hm
  | .ix e i, e', h, hm => rebuild_keeps hv _ _ (rebuildOr_ok h) hm
  | .cast k a, e', h, hm => by
    rw [castParent] at h
    obtain ⟨a', h1, rfl⟩ := map_ok h
    exact .cast (castParent_keeps hv a a' h1 (mentions_cast.1 hm))
  | .un o a, _, h, hm => by cases h; exact chg_keeps hv (.un o a) .operand hm
  | .bin o a b, _, h, hm => by cases h; exact chg_keeps hv (.bin o a b) .operand hm
  | .cat xs, _, h, hm => by cases h; exact chg_keeps hv (.cat xs) .operand hm
  | .ext w a, _, h, hm => by cases h; exact chg_keeps hv (.ext w a) .operand hm
  | .dup k a, _, h, hm => by cases h; exact chg_keeps hv (.dup k a) .operand hm
  | .ite c a b, _, h, hm => by cases h; exact chg_keeps hv (.ite c a b) .operand hm

theorem setSide_keeps (hv : v ≠ t) (e e' : E) (h : setSide t n e = .ok e') (hm : Mentions v e) : Mentions v e' := by
  cases e with
  | var u =>
    rw [mentions_var] at hm; subst hm
    rw [setSide, if_neg hv] at h; cases h
  | const k => cases h
  | call f as => cases h
  | param k => cases h; exact hm
  | sl e hi lo => exact castParent_keeps hv (.sl e hi lo) e' h hm
  | ix e i => exact castParent_keeps hv (.ix e i) e' h hm
  | cast k a => exact castParent_keeps hv (.cast k a) e' h hm
  | un o a => exact castParent_keeps hv (.un o a) e' h hm
  | bin o a b => exact castParent_keeps hv (.bin o a b) e' h hm
  | cat xs => exact castParent_keeps hv (.cat xs) e' h hm
  | ext w a => exact castParent_keeps hv (.ext w a) e' h hm
  | dup k a => exact castParent_keeps hv (.dup k a) e' h hm
  | ite c a b => exact castParent_keeps hv (.ite c a b) e' h hm

/-- No new references but the new variable. -/
theorem rebuild_adds : ∀ (e e' : E), rebuild t n e = some e' → Mentions v e' → Mentions v e ∨ Mentions v n
  | .var u, e', h, hm => by
    rw [rebuild] at h; split at h
    · cases h; exact .inr hm
    · cases h
  | .sl e hi lo, e', h, hm => by
    simp only [rebuild, Option.map_eq_some_iff] at h
    obtain ⟨x, hx, rfl⟩ := h
    exact (rebuild_adds e x hx (mentions_sl.1 hm)).imp .sl id
  | .ix e i, e', h, hm => by
    simp only [rebuild, Option.map_eq_some_iff] at h
    obtain ⟨x, hx, rfl⟩ := h
    exact (mentions_ix.1 hm).elim (fun h' => (rebuild_adds e x hx h').imp .ix id) fun h' => .inl (.index h')
  | .const _, _, h, _ => by cases h
  | .param _, _, h, _ => by cases h
  | .un _ a, _, h, _ => by cases h
  | .bin _ a b, _, h, _ => by cases h
  | .cat xs, _, h, _ => by cases h
  | .ext _ a, _, h, _ => by cases h
  | .dup _ a, _, h, _ => by cases h
  | .ite c a b, _, h, _ => by cases h
  | .cast _ a, _, h, _ => by cases h
  | .call _ xs, _, h, _ => by cases h

theorem getD_adds (e : E) (hm : Mentions v ((rebuild t n e).getD e)) : Mentions v e ∨ Mentions v n := by
  cases h : rebuild t n e with
  | none => rw [h] at hm; exact .inl hm
  | some e' => rw [h] at hm; exact rebuild_adds e e' h hm

theorem replaceFirst_adds : ∀ xs : Es, MentionsL v (replaceFirst t n xs) → MentionsL v xs ∨ Mentions v n
  | .nil, h => .inl h
  | .cons x xs, h => by
    rw [replaceFirst] at h; split at h
    · exact (mentionsL_cons.1 h).elim .inr fun h => .inl (.tail h)
    · exact (mentionsL_cons.1 h).elim (fun h => .inl (.head h)) fun h' => (replaceFirst_adds xs h').imp .tail id

mutual
theorem chg_adds : ∀ (e : E) (p : Pos), Mentions v (chg t n p e) → Mentions v e ∨ Mentions v n
  | .var u, p, hm => by
    rw [chg] at hm; split at hm
    · exact .inr hm
    · exact .inl hm
  | .const _, _, hm => .inl hm
  | .param _, _, hm => .inl hm
  | .sl e hi lo, p, hm => by
    rw [chg] at hm; split at hm
    · exact getD_adds _ hm
    · exact .inl hm
  | .ix e i, p, hm => by
    rw [chg] at hm; split at hm
    · exact getD_adds _ hm
    · exact .inl hm
  | .un _ a, _, hm => by rw [chg] at hm; exact (chg_adds a _ (mentions_un.1 hm)).imp .un id
  | .bin _ a b, _, hm => by
    rw [chg] at hm
    exact (mentions_bin.1 hm).elim (fun h => (chg_adds a _ h).imp .binL id) fun h => (chg_adds b _ h).imp .binR id
  | .cat xs, _, hm => by
    rw [chg] at hm
    exact (replaceFirst_adds _ (mentions_cat.1 hm)).elim (fun h => (chgs_adds xs h).imp .cat id) .inr
  | .ext _ a, _, hm => by rw [chg] at hm; exact (chg_adds a _ (mentions_ext.1 hm)).imp .ext id
  | .dup _ a, _, hm => by rw [chg] at hm; exact (chg_adds a _ (mentions_dup.1 hm)).imp .dup id
  | .ite c a b, _, hm => by
    rw [chg] at hm
    exact (mentions_ite.1 hm).elim (fun h => (chg_adds c _ h).imp .cond id) fun h =>
      h.elim (fun h => (chg_adds a _ h).imp .thn id) fun h => (chg_adds b _ h).imp .els id
  | .cast _ a, _, hm => .inl hm
  | .call _ xs, _, hm => .inl hm
theorem chgs_adds : ∀ xs : Es, MentionsL v (chgs t n xs) → MentionsL v xs ∨ Mentions v n
  | .nil, h => .inl h
  | .cons x xs, h => by
    rw [chgs] at h
    exact (mentionsL_cons.1 h).elim (fun h => (chg_adds x _ h).imp .head id) fun h => (chgs_adds xs h).imp .tail id
end

theorem castParent_adds : ∀ (e e' : E), castParent t n e = .ok e' → Mentions v e' → Mentions v e ∨ Mentions v n
  | .var u, e', h, hm => by
    rw [castParent] at h; cases h
    split at hm
    · exact .inr hm
    · exact .inl hm
  | .const _, _, h, hm => by cases h; exact .inl hm
  | .param _, _, h, hm => by cases h; exact .inl hm
  | .call _ _, _, h, hm => by cases h; exact .inl hm
  | .sl e hi lo, e', h, hm => rebuild_adds _ _ (rebuildOr_ok h) hm
  | .ix e i, e', h, hm => rebuild_adds _ _ (rebuildOr_ok h) hm
  | .cast k a, e', h, hm => by
    rw [castParent] at h
    obtain ⟨a', h1, rfl⟩ := map_ok h
    exact (castParent_adds a a' h1 (mentions_cast.1 hm)).imp .cast id
  | .un o a, _, h, hm => by cases h; exact chg_adds (.un o a) .operand hm
  | .bin o a b, _, h, hm => by cases h; exact chg_adds (.bin o a b) .operand hm
  | .cat xs, _, h, hm => by cases h; exact chg_adds (.cat xs) .operand hm
  | .ext w a, _, h, hm => by cases h; exact chg_adds (.ext w a) .operand hm
  | .dup k a, _, h, hm => by cases h; exact chg_adds (.dup k a) .operand hm
  | .ite c a b, _, h, hm => by cases h; exact chg_adds (.ite c a b) .operand hm

theorem setSide_adds (e e' : E) (h : setSide t n e = .ok e') (hm : Mentions v e') : Mentions v e ∨ Mentions v n := by
  cases e with
  | var u =>
    rw [setSide] at h; split at h
    · cases h; exact .inr hm
    · cases h
  | const k => cases h
  | call f as => cases h
  | param k => cases h; exact .inl hm
  | sl e hi lo => exact castParent_adds (.sl e hi lo) e' h hm
  | ix e i => exact castParent_adds (.ix e i) e' h hm
  | cast k a => exact castParent_adds (.cast k a) e' h hm
  | un o a => exact castParent_adds (.un o a) e' h hm
  | bin o a b => exact castParent_adds (.bin o a b) e' h hm
  | cat xs => exact castParent_adds (.cat xs) e' h hm
  | ext w a => exact castParent_adds (.ext w a) e' h hm
  | dup k a => exact castParent_adds (.dup k a) e' h hm
  | ite c a b => exact castParent_adds (.ite c a b) e' h hm

theorem setSide_plain {w : Nat} (e e' : E) (h : setSide t (.var w) e = .ok e') (hx : e.isExpr = false) : e'.isExpr = false := by
  have hr : ∀ (e e' : E), rebuild t (.var w) e = some e' → e'.isExpr = false := by
    intro e e' h
    cases e <;> simp only [rebuild, Option.map_eq_some_iff] at h
    · split at h
      · cases h; rfl
      · cases h
    all_goals first | (cases h; done) | (obtain ⟨x, _, rfl⟩ := h; rfl)
  cases e with
  | var u =>
    rw [setSide] at h; split at h
    · cases h; rfl
    · cases h
  | const k => cases h
  | call f as => cases h
  | param k => cases h; rfl
  | sl e hi lo => exact hr _ _ (rebuildOr_ok h)
  | ix e i => exact hr _ _ (rebuildOr_ok h)
  | cast k a => rw [setSide] at h; obtain ⟨a', _, rfl⟩ := map_ok h; rfl
  | un o a => cases hx
  | bin o a b => cases hx
  | cat xs => cases hx
  | ext w a => cases hx
  | dup k a => cases hx
  | ite c a b => cases hx

end

/-! ### Proof: invariants -/

/-- Registered with the port, on the side that matters for its direction. -/
def reg (d : Dir) (r : Nat) (s : Asn) : Bool :=
  match d with
  | .inp => decide (r ∈ s.src)
  | .out => decide (r ∈ s.snk)
  | .inout => false

/-- A statement that can become the connection of the port. -/
def Good (I : Info) (d : Dir) (r : Nat) (s : Asn) : Prop :=
  s.top = true ∧ match d with
  | .inp => s.left = .var r ∧ okIn I s.right = true
  | .out => okOut I s.left = true ∧ s.right = .var r
  | .inout => False

/-- It is one at instantiation. -/
def hit (I : Info) (d : Dir) (r : Nat) (s : Asn) : Bool :=
  match d with
  | .inp => decide (r ∈ s.src) && genOf I s.right == some 0
  | .out => decide (r ∈ s.snk) && genOf I s.left == some 0
  | .inout => false

def Done (I : Info) (d : Dir) (r : Nat) (ss : List Asn) : Prop :=
  (d = .out ∧ ss.filter (reg d r) = []) ∨ ∃ s, ss.filter (reg d r) = [s] ∧ Good I d r s

structure Inv (ps : List (Nat × Dir × Nat)) (ss : List Asn) : Prop where
  shown : ∀ s ∈ ss, s.shown = s.right ∨ (s.kind = .test ∧ s.right.isExpr = false)
  top : ∀ s ∈ ss, s.top = true → s.kind = .assign
  src : ∀ s ∈ ss, ∀ p ∈ ps, p.1 ∈ s.src → Mentions p.1 s.left
  snk : ∀ s ∈ ss, ∀ p ∈ ps, p.1 ∈ s.snk → Mentions p.1 s.right ∨ Mentions p.1 s.left
  fresh : ∀ p ∈ ps, ∀ s ∈ ss, ¬ Mentions p.2.2 s.left ∧ ¬ Mentions p.2.2 s.right ∧ ¬ Mentions p.2.2 s.shown

/-- Statements no longer listed are connections of ports already visited. -/
def Unl (I : Info) (done : List (Nat × Dir)) (ss : List Asn) : Prop :=
  ∀ s ∈ ss, s.listed = false → ∃ p ∈ done, hit I p.2 p.1 s = true

theorem filter_map_same {α : Type} (g : α → Bool) (f : α → α) : ∀ l : List α, (∀ x ∈ l, g (f x) = g x) →
    (l.map f).filter g = (l.filter g).map f
  | [], _ => rfl
  | x :: l, h => by
    have hx := h x List.mem_cons_self
    have ih := filter_map_same g f l fun y hy => h y (List.mem_cons_of_mem _ hy)
    simp only [List.map_cons, List.filter_cons, hx]
    split
    · rw [List.map_cons, ih]
    · exact ih

theorem filter_none {α : Type} (g : α → Bool) : ∀ l : List α, (∀ x ∈ l, g x = false) → l.filter g = []
  | [], _ => rfl
  | x :: l, h => by
    rw [List.filter_cons, h x List.mem_cons_self, filter_none g l fun y hy => h y (List.mem_cons_of_mem _ hy)]; rfl

theorem only {α : Type} {g : α → Bool} {l : List α} {x y : α} (h : l.filter g = [x]) (hy : y ∈ l) (hg : g y = true) : y = x := by
  have : y ∈ l.filter g := List.mem_filter.2 ⟨hy, hg⟩
  rw [h] at this
  exact List.mem_singleton.1 this

theorem only_mem {α : Type} {g : α → Bool} {l : List α} {x : α} (h : l.filter g = [x]) : x ∈ l ∧ g x = true := by
  have : x ∈ l.filter g := by rw [h]; exact List.mem_singleton.2 rfl
  exact List.mem_filter.1 this

/-- Same statement up to its registrations and whether it is listed. -/
def Same (s s' : Asn) : Prop := s'.top = s.top ∧ s'.left = s.left ∧ s'.right = s.right

theorem good_same {I : Info} {d : Dir} {r : Nat} {s s' : Asn} (h : Same s s') (hg : Good I d r s) : Good I d r s' := by
  obtain ⟨h1, h2, h3⟩ := h
  refine ⟨h1 ▸ hg.1, ?_⟩
  cases d with
  | inp => exact ⟨h2 ▸ hg.2.1, h3 ▸ hg.2.2⟩
  | out => exact ⟨h2 ▸ hg.2.1, h3 ▸ hg.2.2⟩
  | inout => exact hg.2

theorem done_map {I : Info} {d : Dir} {r : Nat} {ss ex : List Asn} {f : Asn → Asn} (h : Done I d r ss)
    (h1 : ∀ s ∈ ss, reg d r (f s) = reg d r s) (h2 : ∀ s ∈ ss, reg d r s = true → Good I d r s → Same s (f s))
    (h3 : ∀ x ∈ ex, reg d r x = false) : Done I d r (ss.map f ++ ex) := by
  have hf : (ss.map f ++ ex).filter (reg d r) = (ss.filter (reg d r)).map f := by
    rw [List.filter_append, filter_map_same _ _ _ h1, filter_none _ _ h3, List.append_nil]
  rcases h with ⟨hd, h⟩ | ⟨s, h, hg⟩
  · exact .inl ⟨hd, by rw [hf, h]; rfl⟩
  · obtain ⟨hm, hr⟩ := only_mem h
    exact .inr ⟨f s, by rw [hf, h]; rfl, good_same (h2 s hm hr hg) hg⟩

theorem hit_reg {I : Info} {d : Dir} {r : Nat} {s : Asn} (h : hit I d r s = true) : reg d r s = true := by
  cases d <;> simp_all [hit, reg]

theorem done_good {I : Info} {d : Dir} {r : Nat} {ss : List Asn} (h : Done I d r ss) {s : Asn} (hs : s ∈ ss) (hr : reg d r s = true) :
    Good I d r s := by
  rcases h with ⟨_, h⟩ | ⟨s', h, hg⟩
  · have : s ∈ ss.filter (reg d r) := List.mem_filter.2 ⟨hs, hr⟩
    rw [h] at this; cases this
  · rw [only h hs hr]; exact hg

theorem hit_same {I : Info} {d : Dir} {r : Nat} {s s' : Asn} (h : Same s s') (hr : reg d r s' = reg d r s) :
    hit I d r s' = hit I d r s := by
  obtain ⟨_, h2, h3⟩ := h
  cases d <;> simp_all [hit, reg]

theorem unl_map {I : Info} {done : List (Nat × Dir)} {ss ex : List Asn} {f : Asn → Asn} (hu : Unl I done ss)
    (hd : ∀ p ∈ done, Done I p.2 p.1 ss) (h1 : ∀ p ∈ done, ∀ s ∈ ss, reg p.2 p.1 (f s) = reg p.2 p.1 s)
    (h2 : ∀ p ∈ done, ∀ s ∈ ss, reg p.2 p.1 s = true → Good I p.2 p.1 s → Same s (f s))
    (h3 : ∀ x ∈ ex, x.listed = true) (h4 : ∀ s ∈ ss, (f s).listed = s.listed) : Unl I done (ss.map f ++ ex) := by
  intro s hs hl
  rcases List.mem_append.1 hs with hs | hs
  · obtain ⟨x, hx, rfl⟩ := List.mem_map.1 hs
    rw [h4 x hx] at hl
    obtain ⟨p, hp, hh⟩ := hu x hx hl
    have hr := hit_reg hh
    exact ⟨p, hp, by rw [hit_same (h2 p hp x hx hr (done_good (hd p hp) hx hr)) (h1 p hp x hx)]; exact hh⟩
  · rw [h3 s hs] at hl; cases hl

/-- A call that succeeds on every element is a `map`. -/
def total {α : Type} (g : α → Res α) (x : α) : α :=
  match g x with
  | .ok y => y
  | _ => x

theorem mapRes_eq {α : Type} {g : α → Res α} : ∀ (l l' : List α), Kinds.mapRes g l = .ok l' →
    l' = l.map (total g) ∧ ∀ x ∈ l, g x = .ok (total g x)
  | [], l', h => by cases h; exact ⟨rfl, fun x hx => by cases hx⟩
  | a :: l, l', h => by
    simp only [Kinds.mapRes, Res.bind_eq_ok] at h
    obtain ⟨a', h1, m, h2, h⟩ := h
    cases h
    obtain ⟨h3, h4⟩ := mapRes_eq l m h2
    have ha : total g a = a' := by rw [total, h1]
    refine ⟨by rw [List.map_cons, ha, h3], fun x hx => ?_⟩
    rcases List.mem_cons.1 hx with rfl | hx
    · rw [ha, h1]
    · exact h4 x hx

/-! #### The three kinds of steps -/

/-- The equations of all statements, listed or not. -/
def All {V : Type} (O : Ops V) (B : List (V × V) → Prop) (ρ : Nat → V) (ss : List Asn) : Prop :=
  (∀ s ∈ ss, s.top = true → ev O ρ s.left = ev O ρ s.shown) ∧ B (inBlocks O ρ ss)

theorem inBlocks_append {V : Type} {O : Ops V} {ρ : Nat → V} (ex : List Asn) (hx : ∀ s ∈ ex, s.top = true) : ∀ ss : List Asn,
    inBlocks O ρ (ss ++ ex) = inBlocks O ρ ss
  | [] => by
    rw [List.nil_append, inBlocks]
    induction ex with
    | nil => rfl
    | cons x ex ih => rw [inBlocks, if_pos (hx x List.mem_cons_self)]; exact ih fun s hs => hx s (List.mem_cons_of_mem _ hs)
  | s :: ss => by simp only [List.cons_append, inBlocks, inBlocks_append ex hx ss]

theorem inBlocks_map {V : Type} {O : Ops V} {ρ σ : Nat → V} {f : Asn → Asn} : ∀ ss : List Asn,
    (∀ s ∈ ss, (f s).top = s.top ∧ ev O ρ (f s).left = ev O σ s.left ∧ ev O ρ (f s).shown = ev O σ s.shown) →
    inBlocks O ρ (ss.map f) = inBlocks O σ ss
  | [], _ => rfl
  | s :: ss, h => by
    obtain ⟨h1, h2, h3⟩ := h s List.mem_cons_self
    simp only [List.map_cons, inBlocks, h1, h2, h3, inBlocks_map ss fun x hx => h x (List.mem_cons_of_mem _ hx)]

/-- Values are the same in both, statement by statement. -/
theorem all_map {V : Type} {O : Ops V} {B : List (V × V) → Prop} {ρ σ : Nat → V} {f : Asn → Asn} {ss : List Asn}
    (h : ∀ s ∈ ss, (f s).top = s.top ∧ ev O ρ (f s).left = ev O σ s.left ∧ ev O ρ (f s).shown = ev O σ s.shown) :
    All O B ρ (ss.map f) ↔ All O B σ ss := by
  rw [All, All, inBlocks_map ss h]
  refine and_congr_left fun _ => ⟨fun ha s hs ht => ?_, fun ha s hs ht => ?_⟩
  · obtain ⟨h1, h2, h3⟩ := h s hs
    have := ha (f s) (List.mem_map.2 ⟨s, hs, rfl⟩) (h1 ▸ ht)
    rw [h2, h3] at this; exact this
  · obtain ⟨x, hx, rfl⟩ := List.mem_map.1 hs
    obtain ⟨h1, h2, h3⟩ := h x hx
    rw [h2, h3]; exact ha x hx (h1 ▸ ht)

theorem all_append {V : Type} {O : Ops V} {B : List (V × V) → Prop} {ρ : Nat → V} {ss : List Asn} {x : Asn} (hx : x.top = true) :
    All O B ρ (ss ++ [x]) ↔ All O B ρ ss ∧ ev O ρ x.left = ev O ρ x.shown := by
  rw [All, All, inBlocks_append [x] (fun s hs => by rw [List.mem_singleton.1 hs]; exact hx)]
  constructor
  · rintro ⟨h1, h2⟩
    exact ⟨⟨fun s hs => h1 s (List.mem_append_left _ hs), h2⟩, h1 x (List.mem_append_right _ List.mem_cons_self) hx⟩
  · rintro ⟨⟨h1, h2⟩, h3⟩
    refine ⟨fun s hs ht => ?_, h2⟩
    rcases List.mem_append.1 hs with hs | hs
    · exact h1 s hs ht
    · rw [List.mem_singleton.1 hs]; exact h3

/-- A value for the new variable. -/
def upd {V : Type} (ρ : Nat → V) (w : Nat) (x : V) : Nat → V := fun v => if v = w then x else ρ v

/-- Replacing variable `q` by `n` (which has the value of the new variable `w`) and connecting both: same signals. -/
theorem all_step {V : Type} {O : Ops V} {B : List (V × V) → Prop} {q w : Nat} {n : E} {ss : List Asn} {f : Asn → Asn} {x : Asn}
    (hn : ∀ ρ : Nat → V, ev O ρ n = ρ w) (hqw : q ≠ w) (hx : x.top = true)
    (hxe : ∀ ρ : Nat → V, ev O ρ x.left = ev O ρ x.shown ↔ ρ q = ρ w)
    (hf : ∀ ρ : Nat → V, ev O ρ n = ρ q → ∀ s ∈ ss, (f s).top = s.top ∧ ev O ρ (f s).left = ev O ρ s.left ∧
      ev O ρ (f s).shown = ev O ρ s.shown)
    (hw : ∀ s ∈ ss, ¬ Mentions w s.left ∧ ¬ Mentions w s.shown) (ρ : Nat → V) :
    All O B ρ ss ↔ ∃ σ : Nat → V, (∀ v, v ≠ w → σ v = ρ v) ∧ All O B σ (ss.map f ++ [x]) := by
  have key : ∀ σ : Nat → V, (∀ v, v ≠ w → σ v = ρ v) → σ q = σ w → (All O B σ (ss.map f ++ [x]) ↔ All O B ρ ss) := by
    intro σ hσ hq
    rw [all_append hx, hxe σ]
    have : All O B σ (ss.map f) ↔ All O B ρ ss := all_map fun s hs => by
      obtain ⟨h1, h2, h3⟩ := hf σ (by rw [hn, hq]) s hs
      exact ⟨h1, by rw [h2, ev_frame hσ _ (hw s hs).1], by rw [h3, ev_frame hσ _ (hw s hs).2]⟩
    rw [this]
    exact ⟨fun h => h.1, fun h => ⟨h, hq⟩⟩
  constructor
  · intro h
    refine ⟨upd ρ w (ρ q), fun v hv => by rw [upd, if_neg hv], ?_⟩
    rw [key _ (fun v hv => by rw [upd, if_neg hv]) (by rw [upd, upd, if_neg hqw, if_pos rfl])]
    exact h
  · rintro ⟨σ, hσ, h⟩
    have hq : σ q = σ w := ((all_append hx).1 h).2 |> (hxe σ).1
    exact (key σ hσ hq).1 h

/-- What is known about the port being visited, its new variable, and the others. -/
structure Ctx (I : Info) (done : List (Nat × Dir)) (q w : Nat) (ps : List (Nat × Dir × Nat)) : Prop where
  qgen : I.gen q ≠ 0
  qport : I.port q = true
  wgen : I.gen w = 0
  wport : I.port w = false
  dones : ∀ p ∈ done, p.1 ≠ q ∧ I.gen p.1 ≠ 0
  rest : ∀ p ∈ ps, p.1 ≠ q ∧ I.gen p.1 ≠ 0 ∧ p.2.2 ≠ w ∧ I.gen p.2.2 = 0

structure After (I : Info) (done : List (Nat × Dir)) (ps : List (Nat × Dir × Nat)) (ss : List Asn) : Prop where
  inv : Inv ps ss
  dones : ∀ p ∈ done, Done I p.2 p.1 ss
  unl : Unl I done ss

theorem Ctx.ne {I : Info} {done : List (Nat × Dir)} {q w : Nat} {ps : List (Nat × Dir × Nat)} (c : Ctx I done q w ps) : q ≠ w :=
  fun h => c.qgen (h ▸ c.wgen)

theorem okOut_not {I : Info} {e : E} {v : Nat} (h : okOut I e = true) (hv : I.gen v ≠ 0) : ¬ Mentions v e := by
  rw [okOut, Bool.and_eq_true, beq_iff_eq] at h
  obtain ⟨h1, h2⟩ := h
  have hp : ∀ e : E, plain I e = true → genOf I e = some 0 → ¬ Mentions v e := by
    intro e hp hg hm
    cases e with
    | var u => rw [mentions_var] at hm; subst hm; exact hv (Option.some.inj hg)
    | const k => exact mentions_const hm
    | param k => exact mentions_param hm
    | _ => cases hp
  cases e with
  | cast k a => exact fun hm => hp a h1 h2 (mentions_cast.1 hm)
  | _ => exact hp _ h1 h2

/-- A source that is accepted mentions ports of children at most as an index. -/
theorem okIn_or {I : Info} {e : E} {v : Nat} (h : okIn I e = true) (hv : I.gen v ≠ 0) (hp : I.port v = true) (hm : Mentions v e) :
    isSlice e = true ∧ genOf I e = some 0 := by
  rw [okIn, Bool.or_eq_true, Bool.and_eq_true, beq_iff_eq] at h
  rcases h with h | h
  · exfalso
    have hpl : ∀ e : E, plain I e = true → ¬ Mentions v e := by
      intro e h hm
      cases e with
      | var u =>
        rw [mentions_var] at hm; subst hm
        rw [plain, Bool.or_eq_true, hp, beq_iff_eq] at h
        exact h.elim (fun h => by cases h) hv
      | const k => exact mentions_const hm
      | param k => exact mentions_param hm
      | _ => cases h
    cases e with
    | cast k a => exact hpl a h (mentions_cast.1 hm)
    | _ => exact hpl _ (by exact h) hm
  · exact h

theorem rebuild_gen {I : Info} {v : Nat} {n : E} (hv : I.gen v ≠ 0) : ∀ e : E, genOf I e = some 0 → rebuild v n e = none
  | .var u, h => by
    rw [rebuild, if_neg]
    exact fun hu => hv (hu ▸ Option.some.inj h)
  | .sl e _ _, h => by rw [rebuild, rebuild_gen hv e h]; rfl
  | .ix e _, h => by rw [rebuild, rebuild_gen hv e h]; rfl
  | .const _, _ => rfl
  | .param _, _ => rfl
  | .un _ a, h => rfl
  | .bin _ a b, h => rfl
  | .cat xs, h => rfl
  | .ext _ a, h => rfl
  | .dup _ a, h => rfl
  | .ite c a b, h => rfl
  | .cast _ a, h => rfl
  | .call _ xs, h => rfl

theorem setSide_slice {I : Info} {v : Nat} {n : E} (hv : I.gen v ≠ 0) {e : E} (hs : isSlice e = true) (hg : genOf I e = some 0) :
    setSide v n e = .throw .user := by
  cases e with
  | sl a hi lo => rw [setSide, rebuildOr, rebuild_gen hv _ hg]
  | ix a i => rw [setSide, rebuildOr, rebuild_gen hv _ hg]
  | _ => cases hs

theorem newVar_mentions {I : Info} {q w v : Nat} : Mentions v (newVar I q w) → v = w := by
  rw [newVar]; split
  · intro h; exact (mentions_var.1 (mentions_cast.1 h)).symm
  · intro h; exact (mentions_var.1 h).symm

theorem newVar_okIn {I : Info} {q w : Nat} (hw : I.port w = false) : okIn I (newVar I q w) = true := by
  rw [newVar]; split <;> simp [okIn, okSrc, plain, hw]

/-- What `srcOne` does. -/
theorem srcOne_cases {q w : Nat} {n : E} {s s' : Asn} (h : srcOne q w n s = .ok s') :
    (q ∉ s.src ∧ s' = s) ∨ (q ∈ s.src ∧ ∃ l, setSide q n s.left = .ok l ∧ s' = { s with left := l, src := w :: s.src.filter (· ≠ q) }) := by
  rw [srcOne] at h
  split at h
  · rename_i hq
    obtain ⟨l, h1, rfl⟩ := map_ok h
    exact .inr ⟨hq, l, h1, rfl⟩
  · rename_i hq; cases h; exact .inl ⟨hq, rfl⟩

theorem snkOne_cases {q w : Nat} {s s' : Asn} (h : snkOne q w s = .ok s') :
    (q ∉ s.snk ∧ s' = s) ∨ (q ∈ s.snk ∧ ∃ r, setSide q (.var w) s.right = .ok r ∧
      s' = { s with right := r, shown := if s.kind = .assign ∨ s.right.isExpr = true then r else s.shown,
                    snk := w :: s.snk.filter (· ≠ q) }) := by
  rw [snkOne] at h
  split at h
  · rename_i hq
    obtain ⟨l, h1, rfl⟩ := map_ok h
    exact .inr ⟨hq, l, h1, rfl⟩
  · rename_i hq; cases h; exact .inl ⟨hq, rfl⟩

theorem mem_moved {q w v : Nat} {l : List Nat} (hv : v ≠ q) (hw : v ≠ w) : v ∈ w :: l.filter (· ≠ q) ↔ v ∈ l := by
  simp [hv, hw]

theorem moveSrc_after {I : Info} {done : List (Nat × Dir)} {q w : Nat} {ps : List (Nat × Dir × Nat)} {ss ss' : List Asn}
    (c : Ctx I done q w ps) (hi : Inv ((q, .inp, w) :: ps) ss) (hd : ∀ p ∈ done, Done I p.2 p.1 ss) (hu : Unl I done ss)
    (h : moveSrc I q w ss = .ok ss') : After I ((q, .inp) :: done) ps ss' := by
  rw [moveSrc] at h
  obtain ⟨m, hm, rfl⟩ := map_ok h
  obtain ⟨rfl, hf⟩ := mapRes_eq ss m hm
  have hqw := c.ne
  -- registrations of other ports do not change
  have hreg : ∀ r d, r ≠ q → r ≠ w → ∀ s ∈ ss, reg d r (total (srcOne q w (newVar I q w)) s) = reg d r s := by
    intro r d hr hrw s hs
    rcases srcOne_cases (hf s hs) with ⟨_, he⟩ | ⟨_, l, _, he⟩
    · rw [he]
    · rw [he]
      cases d with
      | inp => simp only [reg, mem_moved hr hrw]
      | out => rfl
      | inout => rfl
  have hdw : ∀ p ∈ done, p.1 ≠ w := fun p hp hw => (c.dones p hp).2 (hw ▸ c.wgen)
  have hsame : ∀ p ∈ done, ∀ s ∈ ss, reg p.2 p.1 s = true → Good I p.2 p.1 s → Same s (total (srcOne q w (newVar I q w)) s) := by
    intro p hp s hs hr hg
    rcases srcOne_cases (hf s hs) with ⟨_, he⟩ | ⟨hq, l, _, he⟩
    · rw [he]; exact ⟨rfl, rfl, rfl⟩
    · exfalso
      have hm := hi.src s hs _ List.mem_cons_self hq
      obtain ⟨r, d⟩ := p
      cases d with
      | inp =>
        rw [hg.2.1] at hm
        exact (c.dones _ hp).1 (mentions_var.1 hm)
      | out => exact okOut_not hg.2.1 c.qgen hm
      | inout => exact hg.2
  have hex : ∀ p ∈ done, ∀ x ∈ [(⟨true, .assign, .var q, newVar I q w, newVar I q w, [q], [w], true⟩ : Asn)], reg p.2 p.1 x = false := by
    intro p hp x hx
    rw [List.mem_singleton.1 hx]
    have h1 := (c.dones p hp).1
    have h2 := hdw p hp
    cases p.2 <;> simp [reg, h1, h2]
  have hqs : ∀ s ∈ ss, reg .inp q (total (srcOne q w (newVar I q w)) s) = false := by
    intro s hs
    rcases srcOne_cases (hf s hs) with ⟨hq, he⟩ | ⟨hq, l, _, he⟩
    · rw [he]; simp [reg, hq]
    · rw [he]; simp [reg, hqw]
  refine ⟨?_, ?_, ?_⟩
  · -- Inv
    constructor
    · intro s hs
      rcases List.mem_append.1 hs with hs | hs
      · obtain ⟨x, hx, rfl⟩ := List.mem_map.1 hs
        rcases srcOne_cases (hf x hx) with ⟨_, he⟩ | ⟨_, l, _, he⟩ <;> rw [he] <;> exact hi.shown x hx
      · rw [List.mem_singleton.1 hs]; exact .inl rfl
    · intro s hs ht
      rcases List.mem_append.1 hs with hs | hs
      · obtain ⟨x, hx, rfl⟩ := List.mem_map.1 hs
        rcases srcOne_cases (hf x hx) with ⟨_, he⟩ | ⟨_, l, _, he⟩ <;> rw [he] at ht ⊢ <;> exact hi.top x hx ht
      · rw [List.mem_singleton.1 hs]
    · intro s hs p hp hpm
      obtain ⟨hpq, hpg, -, -⟩ := c.rest p hp
      have hpw : p.1 ≠ w := fun hw => hpg (hw ▸ c.wgen)
      rcases List.mem_append.1 hs with hs | hs
      · obtain ⟨x, hx, rfl⟩ := List.mem_map.1 hs
        rcases srcOne_cases (hf x hx) with ⟨_, he⟩ | ⟨_, l, hl, he⟩
        · rw [he] at hpm ⊢; exact hi.src x hx p (List.mem_cons_of_mem _ hp) hpm
        · rw [he] at hpm ⊢
          exact setSide_keeps hpq _ _ hl (hi.src x hx p (List.mem_cons_of_mem _ hp) ((mem_moved hpq hpw).1 hpm))
      · rw [List.mem_singleton.1 hs] at hpm
        exact absurd (List.mem_singleton.1 hpm) hpq
    · intro s hs p hp hpm
      obtain ⟨hpq, hpg, -, -⟩ := c.rest p hp
      have hpw : p.1 ≠ w := fun hw => hpg (hw ▸ c.wgen)
      rcases List.mem_append.1 hs with hs | hs
      · obtain ⟨x, hx, rfl⟩ := List.mem_map.1 hs
        rcases srcOne_cases (hf x hx) with ⟨_, he⟩ | ⟨_, l, hl, he⟩
        · rw [he] at hpm ⊢; exact hi.snk x hx p (List.mem_cons_of_mem _ hp) hpm
        · rw [he] at hpm ⊢
          exact (hi.snk x hx p (List.mem_cons_of_mem _ hp) hpm).imp id (setSide_keeps hpq _ _ hl)
      · rw [List.mem_singleton.1 hs] at hpm
        exact absurd (List.mem_singleton.1 hpm) hpw
    · intro p hp s hs
      obtain ⟨hpq, hpg, hpw, hpz⟩ := c.rest p hp
      have hpq' : p.2.2 ≠ q := fun hh => c.qgen (hh ▸ hpz)
      rcases List.mem_append.1 hs with hs | hs
      · obtain ⟨x, hx, rfl⟩ := List.mem_map.1 hs
        obtain ⟨f1, f2, f3⟩ := hi.fresh p (List.mem_cons_of_mem _ hp) x hx
        rcases srcOne_cases (hf x hx) with ⟨_, he⟩ | ⟨_, l, hl, he⟩
        · rw [he]; exact ⟨f1, f2, f3⟩
        · rw [he]
          exact ⟨fun hm => (setSide_adds _ _ hl hm).elim f1 fun hm => hpw (newVar_mentions hm), f2, f3⟩
      · rw [List.mem_singleton.1 hs]
        exact ⟨fun hm => hpq' (mentions_var.1 hm).symm, fun hm => hpw (newVar_mentions hm), fun hm => hpw (newVar_mentions hm)⟩
  · -- Done
    intro p hp
    rcases List.mem_cons.1 hp with rfl | hp
    · refine .inr ⟨⟨true, .assign, .var q, newVar I q w, newVar I q w, [q], [w], true⟩, ?_, rfl, rfl, newVar_okIn c.wport⟩
      rw [List.filter_append, filter_none]
      · simp [reg]
      · intro x hx
        obtain ⟨y, hy, rfl⟩ := List.mem_map.1 hx
        exact hqs y hy
    · exact done_map (hd p hp) (hreg p.1 p.2 (c.dones p hp).1 (hdw p hp)) (hsame p hp) (hex p hp)
  · -- Unl
    have := unl_map hu hd (fun p hp => hreg p.1 p.2 (c.dones p hp).1 (hdw p hp)) hsame
      (ex := [⟨true, .assign, .var q, newVar I q w, newVar I q w, [q], [w], true⟩])
      (fun x hx => by rw [List.mem_singleton.1 hx])
      (fun s hs => by rcases srcOne_cases (hf s hs) with ⟨_, he⟩ | ⟨_, l, _, he⟩ <;> rw [he])
    intro s hs hl
    obtain ⟨p, hp, hh⟩ := this s hs hl
    exact ⟨p, List.mem_cons_of_mem _ hp, hh⟩

theorem moveSnk_after {I : Info} {done : List (Nat × Dir)} {q w : Nat} {ps : List (Nat × Dir × Nat)} {ss ss' : List Asn}
    (c : Ctx I done q w ps) (hi : Inv ((q, .out, w) :: ps) ss) (hd : ∀ p ∈ done, Done I p.2 p.1 ss) (hu : Unl I done ss)
    (h : moveSnk q w ss = .ok ss') : After I ((q, .out) :: done) ps ss' := by
  rw [moveSnk] at h
  obtain ⟨m, hm, rfl⟩ := map_ok h
  obtain ⟨rfl, hf⟩ := mapRes_eq ss m hm
  have hqw := c.ne
  have hreg : ∀ r d, r ≠ q → r ≠ w → ∀ s ∈ ss, reg d r (total (snkOne q w) s) = reg d r s := by
    intro r d hr hrw s hs
    rcases snkOne_cases (hf s hs) with ⟨_, he⟩ | ⟨_, l, _, he⟩
    · rw [he]
    · rw [he]
      cases d with
      | inp => rfl
      | out => simp only [reg, mem_moved hr hrw]
      | inout => rfl
  have hdw : ∀ p ∈ done, p.1 ≠ w := fun p hp hw => (c.dones p hp).2 (hw ▸ c.wgen)
  have hsame : ∀ p ∈ done, ∀ s ∈ ss, reg p.2 p.1 s = true → Good I p.2 p.1 s → Same s (total (snkOne q w) s) := by
    intro p hp s hs hr hg
    rcases snkOne_cases (hf s hs) with ⟨_, he⟩ | ⟨hq, l, hl, he⟩
    · rw [he]; exact ⟨rfl, rfl, rfl⟩
    · exfalso
      have hm := hi.snk s hs _ List.mem_cons_self hq
      obtain ⟨r, d⟩ := p
      cases d with
      | inp =>
        rcases hm with hm | hm
        · obtain ⟨h1, h2⟩ := okIn_or hg.2.2 c.qgen c.qport hm
          rw [setSide_slice c.qgen h1 h2] at hl
          cases hl
        · rw [hg.2.1] at hm
          exact (c.dones _ hp).1 (mentions_var.1 hm)
      | out =>
        rcases hm with hm | hm
        · rw [hg.2.2] at hm
          exact (c.dones _ hp).1 (mentions_var.1 hm)
        · exact okOut_not hg.2.1 c.qgen hm
      | inout => exact hg.2
  have hex : ∀ p ∈ done, ∀ x ∈ [(⟨true, .assign, .var w, .var q, .var q, [w], [q], true⟩ : Asn)], reg p.2 p.1 x = false := by
    intro p hp x hx
    rw [List.mem_singleton.1 hx]
    have h1 := (c.dones p hp).1
    have h2 := hdw p hp
    cases p.2 <;> simp [reg, h1, h2]
  have hqs : ∀ s ∈ ss, reg .out q (total (snkOne q w) s) = false := by
    intro s hs
    rcases snkOne_cases (hf s hs) with ⟨hq, he⟩ | ⟨hq, l, _, he⟩
    · rw [he]; simp [reg, hq]
    · rw [he]; simp [reg, hqw]
  refine ⟨?_, ?_, ?_⟩
  · constructor
    · intro s hs
      rcases List.mem_append.1 hs with hs | hs
      · obtain ⟨x, hx, rfl⟩ := List.mem_map.1 hs
        rcases snkOne_cases (hf x hx) with ⟨_, he⟩ | ⟨_, l, hl, he⟩
        · rw [he]; exact hi.shown x hx
        · rw [he]
          simp only
          by_cases hk : x.kind = .assign ∨ x.right.isExpr = true
          · rw [if_pos hk]; exact .inl rfl
          · have h1 : x.kind = .test := by cases hh : x.kind with
              | assign => exact absurd (.inl hh) hk
              | test => rfl
            have h2 : x.right.isExpr = false := by cases hh : x.right.isExpr with
              | true => exact absurd (.inr hh) hk
              | false => rfl
            exact .inr ⟨h1, setSide_plain _ _ hl h2⟩
      · rw [List.mem_singleton.1 hs]; exact .inl rfl
    · intro s hs ht
      rcases List.mem_append.1 hs with hs | hs
      · obtain ⟨x, hx, rfl⟩ := List.mem_map.1 hs
        rcases snkOne_cases (hf x hx) with ⟨_, he⟩ | ⟨_, l, _, he⟩ <;> rw [he] at ht ⊢ <;> exact hi.top x hx ht
      · rw [List.mem_singleton.1 hs]
    · intro s hs p hp hpm
      obtain ⟨hpq, hpg, -, -⟩ := c.rest p hp
      have hpw : p.1 ≠ w := fun hw => hpg (hw ▸ c.wgen)
      rcases List.mem_append.1 hs with hs | hs
      · obtain ⟨x, hx, rfl⟩ := List.mem_map.1 hs
        rcases snkOne_cases (hf x hx) with ⟨_, he⟩ | ⟨_, l, hl, he⟩ <;> rw [he] at hpm ⊢ <;>
          exact hi.src x hx p (List.mem_cons_of_mem _ hp) hpm
      · rw [List.mem_singleton.1 hs] at hpm
        exact absurd (List.mem_singleton.1 hpm) hpw
    · intro s hs p hp hpm
      obtain ⟨hpq, hpg, -, -⟩ := c.rest p hp
      have hpw : p.1 ≠ w := fun hw => hpg (hw ▸ c.wgen)
      rcases List.mem_append.1 hs with hs | hs
      · obtain ⟨x, hx, rfl⟩ := List.mem_map.1 hs
        rcases snkOne_cases (hf x hx) with ⟨_, he⟩ | ⟨_, l, hl, he⟩
        · rw [he] at hpm ⊢; exact hi.snk x hx p (List.mem_cons_of_mem _ hp) hpm
        · rw [he] at hpm ⊢
          exact (hi.snk x hx p (List.mem_cons_of_mem _ hp) ((mem_moved hpq hpw).1 hpm)).imp (setSide_keeps hpq _ _ hl) id
      · rw [List.mem_singleton.1 hs] at hpm
        exact absurd (List.mem_singleton.1 hpm) hpq
    · intro p hp s hs
      obtain ⟨hpq, hpg, hpw, hpz⟩ := c.rest p hp
      have hpq' : p.2.2 ≠ q := fun hh => c.qgen (hh ▸ hpz)
      rcases List.mem_append.1 hs with hs | hs
      · obtain ⟨x, hx, rfl⟩ := List.mem_map.1 hs
        obtain ⟨f1, f2, f3⟩ := hi.fresh p (List.mem_cons_of_mem _ hp) x hx
        rcases snkOne_cases (hf x hx) with ⟨_, he⟩ | ⟨_, l, hl, he⟩
        · rw [he]; exact ⟨f1, f2, f3⟩
        · rw [he]
          have h2 : ¬ Mentions p.2.2 l := fun hm => (setSide_adds _ _ hl hm).elim f2 fun hm => hpw (mentions_var.1 hm).symm
          refine ⟨f1, h2, ?_⟩
          simp only
          split
          · exact h2
          · exact f3
      · rw [List.mem_singleton.1 hs]
        exact ⟨fun hm => hpw (mentions_var.1 hm).symm, fun hm => hpq' (mentions_var.1 hm).symm, fun hm => hpq' (mentions_var.1 hm).symm⟩
  · intro p hp
    rcases List.mem_cons.1 hp with rfl | hp
    · refine .inr ⟨⟨true, .assign, .var w, .var q, .var q, [w], [q], true⟩, ?_, rfl, ?_, rfl⟩
      · rw [List.filter_append, filter_none]
        · simp [reg]
        · intro x hx
          obtain ⟨y, hy, rfl⟩ := List.mem_map.1 hx
          exact hqs y hy
      · simp [okOut, okSrc, plain, genOf, c.wgen, c.wport]
    · exact done_map (hd p hp) (hreg p.1 p.2 (c.dones p hp).1 (hdw p hp)) (hsame p hp) (hex p hp)
  · have := unl_map hu hd (fun p hp => hreg p.1 p.2 (c.dones p hp).1 (hdw p hp)) hsame
      (ex := [⟨true, .assign, .var w, .var q, .var q, [w], [q], true⟩])
      (fun x hx => by rw [List.mem_singleton.1 hx])
      (fun s hs => by rcases snkOne_cases (hf s hs) with ⟨_, he⟩ | ⟨_, l, _, he⟩ <;> rw [he])
    intro s hs hl
    obtain ⟨p, hp, hh⟩ := this s hs hl
    exact ⟨p, List.mem_cons_of_mem _ hp, hh⟩

/-- Dropping the first pending port. -/
theorem Inv.tail {p : Nat × Dir × Nat} {ps : List (Nat × Dir × Nat)} {ss : List Asn} (hi : Inv (p :: ps) ss) : Inv ps ss :=
  ⟨hi.shown, hi.top, fun s hs q hq => hi.src s hs q (List.mem_cons_of_mem _ hq), fun s hs q hq => hi.snk s hs q (List.mem_cons_of_mem _ hq),
    fun q hq => hi.fresh q (List.mem_cons_of_mem _ hq)⟩

/-- Taking statements out of the list. -/
theorem Inv.unlist {ps : List (Nat × Dir × Nat)} {ss : List Asn} (g : Asn → Bool) (hi : Inv ps ss) : Inv ps (unlist g ss) := by
  have key : ∀ s ∈ Decouple.unlist g ss, ∃ x ∈ ss, s.shown = x.shown ∧ s.right = x.right ∧ s.left = x.left ∧ s.kind = x.kind ∧ s.top = x.top ∧
      s.src = x.src ∧ s.snk = x.snk := by
    intro s hs
    obtain ⟨x, hx, rfl⟩ := List.mem_map.1 hs
    refine ⟨x, hx, ?_⟩
    split <;> exact ⟨rfl, rfl, rfl, rfl, rfl, rfl, rfl⟩
  constructor
  · intro s hs
    obtain ⟨x, hx, h1, h2, h3, h4, h5, h6, h7⟩ := key s hs
    rw [h1, h2, h4]; exact hi.shown x hx
  · intro s hs
    obtain ⟨x, hx, h1, h2, h3, h4, h5, h6, h7⟩ := key s hs
    rw [h4, h5]; exact hi.top x hx
  · intro s hs
    obtain ⟨x, hx, h1, h2, h3, h4, h5, h6, h7⟩ := key s hs
    rw [h3, h6]; exact hi.src x hx
  · intro s hs
    obtain ⟨x, hx, h1, h2, h3, h4, h5, h6, h7⟩ := key s hs
    rw [h2, h3, h7]; exact hi.snk x hx
  · intro p hp s hs
    obtain ⟨x, hx, h1, h2, h3, h4, h5, h6, h7⟩ := key s hs
    rw [h1, h2, h3]; exact hi.fresh p hp x hx

theorem unlist_same (g : Asn → Bool) (s : Asn) : Same s (if g s then { s with listed := false } else s) ∧
    ∀ d r, reg d r (if g s then { s with listed := false } else s) = reg d r s := by
  split
  · exact ⟨⟨rfl, rfl, rfl⟩, fun d r => by cases d <;> rfl⟩
  · exact ⟨⟨rfl, rfl, rfl⟩, fun d r => rfl⟩

theorem done_unlist {I : Info} {d : Dir} {r : Nat} {ss : List Asn} (g : Asn → Bool) (h : Done I d r ss) : Done I d r (unlist g ss) := by
  have := done_map (ex := []) (f := fun s => if g s then { s with listed := false } else s) h
    (fun s _ => (unlist_same g s).2 d r) (fun s _ _ _ => (unlist_same g s).1) (fun x hx => by cases hx)
  rw [List.append_nil] at this
  exact this

/-- A port that keeps its statement. -/
theorem keep_after {I : Info} {done : List (Nat × Dir)} {q w : Nat} {d : Dir} {ps : List (Nat × Dir × Nat)} {ss : List Asn} {s : Asn}
    (hi : Inv ((q, d, w) :: ps) ss) (hd : ∀ p ∈ done, Done I p.2 p.1 ss) (hu : Unl I done ss)
    (hs : ss.filter (reg d q) = [s]) (hg : Good I d q s) (hh : hit I d q s = true) :
    After I ((q, d) :: done) ps (unlist (reg d q) ss) := by
  refine ⟨hi.tail.unlist _, fun p hp => ?_, fun x hx hl => ?_⟩
  · rcases List.mem_cons.1 hp with rfl | hp
    · exact done_unlist _ (.inr ⟨s, hs, hg⟩)
    · exact done_unlist _ (hd p hp)
  · obtain ⟨y, hy, rfl⟩ := List.mem_map.1 hx
    have hsame := unlist_same (reg d q) y
    by_cases hr : reg d q y = true
    · refine ⟨(q, d), List.mem_cons_self, ?_⟩
      rw [hit_same hsame.1 (hsame.2 d q), only hs hy hr]
      exact hh
    · rw [if_neg hr] at hl
      obtain ⟨p, hp, hh⟩ := hu y hy hl
      exact ⟨p, List.mem_cons_of_mem _ hp, by rw [hit_same hsame.1 (hsame.2 p.2 p.1)]; exact hh⟩

theorem same_after {I : Info} {done : List (Nat × Dir)} {q w : Nat} {d : Dir} {ps : List (Nat × Dir × Nat)} {ss : List Asn}
    (hi : Inv ((q, d, w) :: ps) ss) (hd : ∀ p ∈ done, Done I p.2 p.1 ss) (hu : Unl I done ss) (hs : Done I d q ss) :
    After I ((q, d) :: done) ps ss := by
  refine ⟨hi.tail, fun p hp => ?_, fun x hx hl => ?_⟩
  · rcases List.mem_cons.1 hp with rfl | hp
    · exact hs
    · exact hd p hp
  · obtain ⟨p, hp, hh⟩ := hu x hx hl
    exact ⟨p, List.mem_cons_of_mem _ hp, hh⟩

theorem process_after {I : Info} {done : List (Nat × Dir)} {q w : Nat} {d : Dir} {ps : List (Nat × Dir × Nat)} {ss ss' : List Asn}
    (c : Ctx I done q w ps) (hi : Inv ((q, d, w) :: ps) ss) (hd : ∀ p ∈ done, Done I p.2 p.1 ss) (hu : Unl I done ss)
    (h : process I d q w ss = .ok ss') : After I ((q, d) :: done) ps ss' := by
  cases d with
  | inp =>
    simp only [process, processIn] at h
    split at h
    · rename_i s hs
      split at h
      · rename_i hc
        cases h
        have hg : Good I .inp q s := ⟨hc.1, hc.2.1, hc.2.2⟩
        split
        · rename_i hz
          refine keep_after hi hd hu hs hg ?_
          simp only [hit, Bool.and_eq_true, beq_iff_eq]
          exact ⟨(only_mem hs).2, hz⟩
        · exact same_after hi hd hu (.inr ⟨s, hs, hg⟩)
      · exact moveSrc_after c hi hd hu h
    · exact moveSrc_after c hi hd hu h
  | out =>
    simp only [process, processOut] at h
    split at h
    · rename_i hs
      cases h
      exact same_after hi hd hu (.inl ⟨rfl, hs⟩)
    · rename_i s hs
      split at h
      · rename_i hc
        cases h
        have hg : Good I .out q s := ⟨hc.1, hc.2.1, hc.2.2⟩
        refine keep_after hi hd hu hs hg ?_
        have := hc.2.1
        rw [okOut, Bool.and_eq_true] at this
        simp only [hit, Bool.and_eq_true]
        exact ⟨(only_mem hs).2, this.2⟩
      · exact moveSnk_after c hi hd hu h
    · exact moveSnk_after c hi hd hu h
  | inout => cases h

section
variable {V : Type} {O : Ops V} {B : List (V × V) → Prop}

theorem all_unlist (g : Asn → Bool) (ρ : Nat → V) (ss : List Asn) : All O B ρ (unlist g ss) ↔ All O B ρ ss :=
  all_map fun s _ => by split <;> exact ⟨rfl, rfl, rfl⟩

theorem all_refl {ss : List Asn} {ρ : Nat → V} {w : Nat} {q : Nat} (hw : ∀ s ∈ ss, ¬ Mentions w s.left ∧ ¬ Mentions w s.shown) :
    All O B ρ ss ↔ ∃ σ : Nat → V, (∀ v, v ≠ w → σ v = ρ v) ∧ All O B σ ss := by
  refine ⟨fun h => ⟨ρ, fun _ _ => rfl, h⟩, fun ⟨σ, hσ, h⟩ => ?_⟩
  have := all_map (O := O) (B := B) (ρ := σ) (σ := ρ) (f := id) (ss := ss) fun s hs =>
    ⟨rfl, ev_frame hσ _ (hw s hs).1, ev_frame hσ _ (hw s hs).2⟩
  rw [List.map_id] at this
  exact this.1 h

theorem moveSrc_all {I : Info} (hO : ∀ q k, I.special q = some k → ∀ x, O.cast k x = x) {q w : Nat} {ss ss' : List Asn} (hqw : q ≠ w)
    (hw : ∀ s ∈ ss, ¬ Mentions w s.left ∧ ¬ Mentions w s.shown) (h : moveSrc I q w ss = .ok ss') (ρ : Nat → V) :
    All O B ρ ss ↔ ∃ σ : Nat → V, (∀ v, v ≠ w → σ v = ρ v) ∧ All O B σ ss' := by
  rw [moveSrc] at h
  obtain ⟨m, hm, rfl⟩ := map_ok h
  obtain ⟨rfl, hf⟩ := mapRes_eq ss m hm
  have hn : ∀ ρ : Nat → V, ev O ρ (newVar I q w) = ρ w := by
    intro ρ
    rw [newVar]
    cases hs : I.special q with
    | none => rfl
    | some k => simp only [ev, hO q k hs]
  refine all_step hn hqw rfl (fun ρ => by rw [hn, ev]) (fun ρ hρ s hs => ?_) hw ρ
  rcases srcOne_cases (hf s hs) with ⟨_, he⟩ | ⟨_, l, hl, he⟩ <;> rw [he]
  · exact ⟨rfl, rfl, rfl⟩
  · exact ⟨rfl, ev_setSide hρ _ _ hl, rfl⟩

theorem moveSnk_all {q w : Nat} {ss ss' : List Asn} (hqw : q ≠ w)
    (hsh : ∀ s ∈ ss, s.shown = s.right ∨ (s.kind = .test ∧ s.right.isExpr = false))
    (hw : ∀ s ∈ ss, ¬ Mentions w s.left ∧ ¬ Mentions w s.shown) (h : moveSnk q w ss = .ok ss') (ρ : Nat → V) :
    All O B ρ ss ↔ ∃ σ : Nat → V, (∀ v, v ≠ w → σ v = ρ v) ∧ All O B σ ss' := by
  rw [moveSnk] at h
  obtain ⟨m, hm, rfl⟩ := map_ok h
  obtain ⟨rfl, hf⟩ := mapRes_eq ss m hm
  refine all_step (n := .var w) (fun ρ => rfl) hqw rfl (fun ρ => ?_) (fun ρ hρ s hs => ?_) hw ρ
  · simp only [ev]; exact ⟨fun h => h.symm, fun h => h.symm⟩
  rcases snkOne_cases (hf s hs) with ⟨_, he⟩ | ⟨_, l, hl, he⟩ <;> rw [he]
  · exact ⟨rfl, rfl, rfl⟩
  · refine ⟨rfl, rfl, ?_⟩
    simp only
    split
    · rename_i hk
      rw [ev_setSide hρ _ _ hl]
      rcases hsh s hs with h | ⟨h1, h2⟩
      · rw [h]
      · rcases hk with hk | hk
        · rw [h1] at hk; cases hk
        · rw [h2] at hk; cases hk
    · rfl

theorem process_all {I : Info} (hO : ∀ q k, I.special q = some k → ∀ x, O.cast k x = x) {q w : Nat} {d : Dir} {ss ss' : List Asn}
    (hqw : q ≠ w) (hsh : ∀ s ∈ ss, s.shown = s.right ∨ (s.kind = .test ∧ s.right.isExpr = false))
    (hw : ∀ s ∈ ss, ¬ Mentions w s.left ∧ ¬ Mentions w s.shown) (h : process I d q w ss = .ok ss') (ρ : Nat → V) :
    All O B ρ ss ↔ ∃ σ : Nat → V, (∀ v, v ≠ w → σ v = ρ v) ∧ All O B σ ss' := by
  have hun : ∀ g, All O B ρ ss ↔ ∃ σ : Nat → V, (∀ v, v ≠ w → σ v = ρ v) ∧ All O B σ (unlist g ss) := by
    intro g
    simp only [all_unlist]
    exact all_refl (q := q) hw
  cases d with
  | inp =>
    simp only [process, processIn] at h
    split at h
    · split at h
      · cases h
        split
        · exact hun _
        · exact all_refl (q := q) hw
      · exact moveSrc_all hO hqw hw h ρ
    · exact moveSrc_all hO hqw hw h ρ
  | out =>
    simp only [process, processOut] at h
    split at h
    · cases h; exact all_refl (q := q) hw
    · split at h
      · cases h; exact hun _
      · exact moveSnk_all hqw hsh hw h ρ
    · exact moveSnk_all hqw hsh hw h ρ
  | inout => cases h

/-- All ports of all children, one after the other. -/
theorem decouple_all {I : Info} (hO : ∀ q k, I.special q = some k → ∀ x, O.cast k x = x) : ∀ (ps : List (Nat × Dir × Nat))
    (done : List (Nat × Dir)) (ss ss' : List Asn), After I done ps ss →
    (∀ p ∈ ps, I.gen p.1 ≠ 0 ∧ I.port p.1 = true ∧ I.gen p.2.2 = 0 ∧ I.port p.2.2 = false) →
    (ps.map fun p => p.1).Nodup → (ps.map fun p => p.2.2).Nodup → (∀ p ∈ done, I.gen p.1 ≠ 0 ∧ ∀ x ∈ ps, p.1 ≠ x.1) →
    decouple I ps ss = .ok ss' →
    (∃ done', After I done' [] ss' ∧ ∀ p, p ∈ done' ↔ p ∈ done ∨ p ∈ ps.map fun p => (p.1, p.2.1)) ∧
    ∀ ρ : Nat → V, All O B ρ ss ↔ ∃ σ : Nat → V, (∀ v, v ∉ ps.map (fun p => p.2.2) → σ v = ρ v) ∧ All O B σ ss'
  | [], done, ss, ss', ha, _, _, _, _, h => by
    cases h
    refine ⟨⟨done, ha, fun p => by simp⟩, fun ρ => ⟨fun h => ⟨ρ, fun _ _ => rfl, h⟩, fun ⟨σ, hσ, h⟩ => ?_⟩⟩
    have : σ = ρ := funext fun v => hσ v (by simp)
    rw [← this]; exact h
  | (q, d, w) :: ps, done, ss, ss', ha, hp, hn1, hn2, hdn, h => by
    rw [decouple, Res.bind_eq_ok] at h
    obtain ⟨m, hm, h⟩ := h
    obtain ⟨p1, p2, p3, p4⟩ := hp _ List.mem_cons_self
    rw [List.map_cons, List.nodup_cons] at hn1 hn2
    have c : Ctx I done q w ps := ⟨p1, p2, p3, p4, fun p hpd => ⟨(hdn p hpd).2 _ List.mem_cons_self, (hdn p hpd).1⟩, fun p hps =>
      ⟨fun he => hn1.1 (List.mem_map.2 ⟨p, hps, he⟩), (hp p (List.mem_cons_of_mem _ hps)).1,
        fun he => hn2.1 (List.mem_map.2 ⟨p, hps, he⟩), (hp p (List.mem_cons_of_mem _ hps)).2.2.1⟩⟩
    have ha' := process_after c ha.inv ha.dones ha.unl hm
    have hsem := fun ρ => process_all (O := O) (B := B) hO c.ne ha.inv.shown
      (fun s hs => ⟨(ha.inv.fresh _ List.mem_cons_self s hs).1, (ha.inv.fresh _ List.mem_cons_self s hs).2.2⟩) hm ρ
    obtain ⟨⟨done', h1, h2⟩, h3⟩ := decouple_all hO ps ((q, d) :: done) m ss' ha' (fun p hps => hp p (List.mem_cons_of_mem _ hps)) hn1.2 hn2.2
      (fun p hpd => by
        rcases List.mem_cons.1 hpd with rfl | hpd
        · exact ⟨p1, fun x hx he => (c.rest x hx).1 he.symm⟩
        · exact ⟨(hdn p hpd).1, fun x hx => (hdn p hpd).2 x (List.mem_cons_of_mem _ hx)⟩) h
    refine ⟨⟨done', h1, fun p => ?_⟩, fun ρ => ?_⟩
    · rw [h2, List.map_cons, List.mem_cons, List.mem_cons]
      constructor
      · rintro ((h | h) | h)
        · exact .inr (.inl h)
        · exact .inl h
        · exact .inr (.inr h)
      · rintro (h | h | h)
        · exact .inl (.inr h)
        · exact .inl (.inl h)
        · exact .inr h
    · rw [hsem ρ]
      constructor
      · rintro ⟨σ, hσ, h⟩
        obtain ⟨τ, hτ, h⟩ := (h3 σ).1 h
        refine ⟨τ, fun v hv => ?_, h⟩
        rw [List.map_cons, List.mem_cons, not_or] at hv
        rw [hτ v hv.2, hσ v hv.1]
      · rintro ⟨τ, hτ, h⟩
        refine ⟨fun v => if v = w then τ w else ρ v, fun v hv => by simp only [if_neg hv], (h3 _).2 ⟨τ, fun v hv => ?_, h⟩⟩
        by_cases hvw : v = w
        · rw [if_pos hvw, hvw]
        · rw [if_neg hvw]
          refine hτ v ?_
          rw [List.map_cons, List.mem_cons, not_or]
          exact ⟨hvw, hv⟩

end

/-! ### Proof: instantiation -/

/-- What the port is connected to. -/
def conn (d : Dir) (s : Asn) : E :=
  match d with
  | .inp => s.right
  | _ => s.left

theorem unlist_unlist (g h : Asn → Bool) (hg : ∀ s, h { s with listed := false } = h s) (ss : List Asn) :
    unlist h (unlist g ss) = unlist (fun s => g s || h s) ss := by
  rw [unlist, unlist, unlist, List.map_map]
  refine List.map_congr_left fun s _ => ?_
  simp only [Function.comp]
  cases h1 : g s <;> cases h2 : h s <;> simp [hg, h2]

theorem hit_listed (I : Info) (d : Dir) (q : Nat) (s : Asn) (b : Bool) : hit I d q { s with listed := b } = hit I d q s := by
  cases d <;> rfl

theorem instPort_spec {I : Info} {q : Nat} {d : Dir} {ss ss' : List Asn} {m : List (Nat × E)} (h : instPort I q d ss = .ok (m, ss')) :
    ss' = unlist (hit I d q) ss ∧
    ((m = [] ∧ d = .out ∧ ss.filter (hit I d q) = []) ∨ ∃ s, ss.filter (hit I d q) = [s] ∧ m = [(q, conn d s)]) := by
  have he : ∀ l : List Asn, l.filter (hit I d q) = [] → unlist (hit I d q) l = l := by
    intro l hl
    rw [unlist]
    have : ∀ x ∈ l, (if hit I d q x = true then { x with listed := false } else x) = x := by
      intro x hx
      rw [if_neg]
      intro hh
      have : x ∈ l.filter (hit I d q) := List.mem_filter.2 ⟨hx, hh⟩
      rw [hl] at this; cases this
    rw [List.map_congr_left this, List.map_id']
  cases d with
  | inp =>
    simp only [instPort] at h
    split at h
    · cases h
    · rename_i s hs
      cases h; exact ⟨rfl, .inr ⟨s, hs, rfl⟩⟩
    · cases h
  | out =>
    simp only [instPort] at h
    split at h
    · rename_i hs
      cases h; exact ⟨(he _ hs).symm, .inl ⟨rfl, rfl, hs⟩⟩
    · rename_i s hs
      cases h; exact ⟨rfl, .inr ⟨s, hs, rfl⟩⟩
    · cases h
  | inout => cases h

theorem unlist_false (ss : List Asn) : unlist (fun _ => false) ss = ss := by
  rw [unlist]
  exact (List.map_congr_left fun s _ => by simp).trans (List.map_id' ss)

theorem mem_unlist {g : Asn → Bool} {ss : List Asn} {x : Asn} (h : x ∈ unlist g ss) :
    ∃ s ∈ ss, x = { s with listed := s.listed && !g s } := by
  obtain ⟨s, hs, rfl⟩ := List.mem_map.1 h
  refine ⟨s, hs, ?_⟩
  cases hg : g s <;> simp

theorem filter_unlist {g h : Asn → Bool} (hh : ∀ s b, h { s with listed := b } = h s) (ss : List Asn) :
    (unlist g ss).filter h = unlist g (ss.filter h) := by
  rw [unlist, filter_map_same]
  · rfl
  · intro s _
    split
    · exact hh s false
    · rfl

/-- The port mapping and what remains: a statement is the connection of a port, and no longer listed, exactly if it is a hit. -/
theorem instantiate_spec {I : Info} : ∀ (ps : List (Nat × Dir)) (ss ss' : List Asn) (m : List (Nat × E)), instantiate I ps ss = .ok (m, ss') →
    ss' = unlist (fun s => ps.any fun p => hit I p.2 p.1 s) ss ∧
    (∀ p ∈ ps, ∀ s ∈ ss, hit I p.2 p.1 s = true → (p.1, conn p.2 s) ∈ m) ∧
    (∀ x ∈ m, ∃ p ∈ ps, x.1 = p.1 ∧ ∃ s ∈ ss, hit I p.2 p.1 s = true ∧ x.2 = conn p.2 s) ∧
    m.map (fun x => x.1) = (ps.filter fun p => ss.any fun s => hit I p.2 p.1 s).map (fun p => p.1) ∧
    (∀ p ∈ ps, p.2 = .inp → ∃ s ∈ ss, hit I p.2 p.1 s = true)
  | [], ss, ss', m, h => by
    cases h
    refine ⟨?_, (fun p hp => by cases hp), (fun x hx => by cases hx), rfl, (fun p hp => by cases hp)⟩
    simp only [List.any_nil, unlist_false]
  | (q, d) :: ps, ss, ss', m, h => by
    rw [instantiate, Res.bind_eq_ok] at h
    obtain ⟨⟨m1, s1⟩, h1, h⟩ := h
    obtain ⟨⟨m2, s2⟩, h2, h⟩ := map_ok h
    cases h
    obtain ⟨e1, c1⟩ := instPort_spec h1
    subst e1
    obtain ⟨e2, c2, c3, c4, c5⟩ := instantiate_spec ps _ _ _ h2
    have lift : ∀ s ∈ ss, ∃ x ∈ unlist (hit I d q) ss, ∀ d' r, hit I d' r x = hit I d' r s ∧ conn d' x = conn d' s := by
      intro s hs
      refine ⟨_, List.mem_map.2 ⟨s, hs, rfl⟩, fun d' r => ?_⟩
      split
      · exact ⟨hit_listed .., by cases d' <;> rfl⟩
      · exact ⟨rfl, rfl⟩
    have lower : ∀ x ∈ unlist (hit I d q) ss, ∃ s ∈ ss, ∀ d' r, hit I d' r x = hit I d' r s ∧ conn d' x = conn d' s := by
      intro x hx
      obtain ⟨s, hs, rfl⟩ := mem_unlist hx
      exact ⟨s, hs, fun d' r => ⟨hit_listed .., by cases d' <;> rfl⟩⟩
    refine ⟨?_, ?_, ?_, ?_, ?_⟩
    · simp only at e2
      rw [e2, unlist_unlist]
      · rfl
      · intro s
        simp only [hit_listed]
    · intro p hp s hs hh
      rcases List.mem_cons.1 hp with rfl | hp
      · rcases c1 with ⟨_, _, c1⟩ | ⟨s', c1, rfl⟩
        · have : s ∈ ss.filter (hit I d q) := List.mem_filter.2 ⟨hs, hh⟩
          rw [c1] at this; cases this
        · rw [only c1 hs hh]; exact List.mem_append_left _ List.mem_cons_self
      · obtain ⟨x, hx, hx'⟩ := lift s hs
        have := c2 p hp x hx (by rw [(hx' _ _).1]; exact hh)
        rw [(hx' p.2 0).2] at this
        exact List.mem_append_right _ this
    · intro x hx
      rcases List.mem_append.1 hx with hx | hx
      · rcases c1 with ⟨c1, _⟩ | ⟨s, c1, c1'⟩
        · rw [c1] at hx; cases hx
        · rw [c1'] at hx
          obtain ⟨hm, hh⟩ := only_mem c1
          rw [List.mem_singleton.1 hx]
          exact ⟨(q, d), List.mem_cons_self, rfl, s, hm, hh, rfl⟩
      · obtain ⟨p, hp, hx1, y, hy, hh, hx2⟩ := c3 x hx
        obtain ⟨s, hs, hs'⟩ := lower y hy
        exact ⟨p, List.mem_cons_of_mem _ hp, hx1, s, hs, by rw [← (hs' _ _).1]; exact hh, by rw [hx2, (hs' p.2 0).2]⟩
    · simp only at c4 ⊢
      have ha : ∀ p : Nat × Dir, ((unlist (hit I d q) ss).any fun s => hit I p.2 p.1 s) = ss.any fun s => hit I p.2 p.1 s := by
        intro p
        rw [Bool.eq_iff_iff, List.any_eq_true, List.any_eq_true]
        constructor
        · rintro ⟨x, hx, hh⟩
          obtain ⟨s, hs, hs'⟩ := lower x hx
          exact ⟨s, hs, by rw [← (hs' _ _).1]; exact hh⟩
        · rintro ⟨s, hs, hh⟩
          obtain ⟨x, hx, hx'⟩ := lift s hs
          exact ⟨x, hx, by rw [(hx' _ _).1]; exact hh⟩
      simp only [ha] at c4
      rw [List.map_append, c4, List.filter_cons]
      rcases c1 with ⟨rfl, _, c1⟩ | ⟨s, c1, rfl⟩
      · have : (ss.any fun s => hit I d q s) = false := by
          rw [Bool.eq_false_iff]
          intro hh
          obtain ⟨s, hs, hh⟩ := List.any_eq_true.1 hh
          have : s ∈ ss.filter (hit I d q) := List.mem_filter.2 ⟨hs, hh⟩
          rw [c1] at this; cases this
        simp only [this]
        rfl
      · obtain ⟨hm, hh⟩ := only_mem c1
        have : (ss.any fun s => hit I d q s) = true := List.any_eq_true.2 ⟨s, hm, hh⟩
        simp only [this]
        rfl
    · intro p hp hd
      rcases List.mem_cons.1 hp with rfl | hp
      · rcases c1 with ⟨_, c1, _⟩ | ⟨s, c1, _⟩
        · simp only at hd; rw [hd] at c1; cases c1
        · exact ⟨s, only_mem c1⟩
      · obtain ⟨x, hx, hh⟩ := c5 p hp hd
        obtain ⟨s, hs, hs'⟩ := lower x hx
        exact ⟨s, hs, by rw [← (hs' _ _).1]; exact hh⟩

/-! ### Proof: the start -/

mutual
theorem sourceOf_mentions {t : Nat} : ∀ e : E, E.sourceOf t e = true → Mentions t e
  | .var v, h => mentions_var.2 (by simpa [E.sourceOf] using h)
  | .sl e _ _, h => .sl (sourceOf_mentions e h)
  | .ix e _, h => .ix (sourceOf_mentions e h)
  | .cast _ e, h => .cast (sourceOf_mentions e h)
  | .cat xs, h => .cat (sourcesOf_mentions xs h)
  | .const _, h => by cases h
  | .param _, h => by cases h
  | .un _ _, h => by cases h
  | .bin _ _ _, h => by cases h
  | .ext _ _, h => by cases h
  | .dup _ _, h => by cases h
  | .ite _ _ _, h => by cases h
  | .call _ _, h => by cases h
theorem sourcesOf_mentions {t : Nat} : ∀ xs : Es, Es.sourceOf t xs = true → MentionsL t xs
  | .nil, h => by cases h
  | .cons x xs, h => by
    rw [Es.sourceOf, Bool.or_eq_true] at h
    exact h.elim (fun h => .head (sourceOf_mentions x h)) fun h => .tail (sourcesOf_mentions xs h)
end

mutual
theorem indexSink_mentions {t : Nat} : ∀ e : E, e.indexSink t = true → Mentions t e
  | .sl e _ _, h => .sl (indexSink_mentions e h)
  | .ix e i, h => by
    rw [E.indexSink, Bool.or_eq_true] at h
    exact h.elim (fun h => .ix (indexSink_mentions e h)) fun h => .index ((sinkOf_iff i).1 h)
  | .cast _ e, h => .cast (indexSink_mentions e h)
  | .cat xs, h => .cat (indexSinks_mentions xs h)
  | .var _, h => by cases h
  | .const _, h => by cases h
  | .param _, h => by cases h
  | .un _ _, h => by cases h
  | .bin _ _ _, h => by cases h
  | .ext _ _, h => by cases h
  | .dup _ _, h => by cases h
  | .ite _ _ _, h => by cases h
  | .call _ _, h => by cases h
theorem indexSinks_mentions {t : Nat} : ∀ xs : Es, xs.indexSink t = true → MentionsL t xs
  | .nil, h => by cases h
  | .cons x xs, h => by
    rw [Es.indexSink, Bool.or_eq_true] at h
    exact h.elim (fun h => .head (indexSink_mentions x h)) fun h => .tail (indexSinks_mentions xs h)
end

theorem start_after {I : Info} {ps : List (Nat × Dir × Nat)} {ss : List Asn} (hs : Start ss) (hp : Ports I ps ss) : After I [] ps ss := by
  refine ⟨⟨fun s h => .inl (hs.shown s h), hs.top, fun s h p _ hq => sourceOf_mentions _ (hs.src s h _ hq), fun s h p _ hq => ?_,
    fun p hpp s h => ?_⟩, (fun p h => by cases h), fun s h hl => ?_⟩
  · exact (hs.snk s h _ hq).imp (sinkOf_iff _).1 (indexSink_mentions _)
  · obtain ⟨h1, h2, _⟩ := (hp.fresh p hpp).1 s h
    rw [hs.shown s h]
    exact ⟨h1, h2, h2⟩
  · rw [hs.listed s h] at hl; cases hl

/-! ### Proof: who is read -/

theorem moveSnk_reads {q w r : Nat} {ss ss' : List Asn} (hr : r ≠ w) (hq : ∃ s ∈ ss, q ∈ s.snk) (h : moveSnk q w ss = .ok ss') :
    (∃ s ∈ ss', r ∈ s.snk) ↔ ∃ s ∈ ss, r ∈ s.snk := by
  rw [moveSnk] at h
  obtain ⟨m, hm, rfl⟩ := map_ok h
  obtain ⟨rfl, hf⟩ := mapRes_eq ss m hm
  by_cases hrq : r = q
  · subst hrq
    exact ⟨fun _ => hq, fun _ => ⟨_, List.mem_append_right _ List.mem_cons_self, List.mem_cons_self⟩⟩
  have hk : ∀ s ∈ ss, (r ∈ (total (snkOne q w) s).snk ↔ r ∈ s.snk) := by
    intro s hs
    rcases snkOne_cases (hf s hs) with ⟨_, he⟩ | ⟨_, l, hl, he⟩ <;> rw [he]
    exact mem_moved hrq hr
  constructor
  · rintro ⟨s, hs, h⟩
    rcases List.mem_append.1 hs with hs | hs
    · obtain ⟨y, hy, rfl⟩ := List.mem_map.1 hs
      exact ⟨y, hy, (hk y hy).1 h⟩
    · rw [List.mem_singleton.1 hs] at h
      exact absurd (List.mem_singleton.1 h) hrq
  · rintro ⟨s, hs, h⟩
    exact ⟨_, List.mem_append_left _ (List.mem_map_of_mem hs), (hk s hs).2 h⟩

theorem moveSrc_reads {I : Info} {q w r : Nat} {ss ss' : List Asn} (hr : r ≠ w) (h : moveSrc I q w ss = .ok ss') :
    (∃ s ∈ ss', r ∈ s.snk) ↔ ∃ s ∈ ss, r ∈ s.snk := by
  rw [moveSrc] at h
  obtain ⟨m, hm, rfl⟩ := map_ok h
  obtain ⟨rfl, hf⟩ := mapRes_eq ss m hm
  have hk : ∀ s ∈ ss, (total (srcOne q w (newVar I q w)) s).snk = s.snk := by
    intro s hs
    rcases srcOne_cases (hf s hs) with ⟨_, he⟩ | ⟨_, l, hl, he⟩ <;> rw [he]
  constructor
  · rintro ⟨s, hs, h⟩
    rcases List.mem_append.1 hs with hs | hs
    · obtain ⟨y, hy, rfl⟩ := List.mem_map.1 hs
      exact ⟨y, hy, by rw [← hk y hy]; exact h⟩
    · rw [List.mem_singleton.1 hs] at h
      exact absurd (List.mem_singleton.1 h) hr
  · rintro ⟨s, hs, h⟩
    exact ⟨_, List.mem_append_left _ (List.mem_map_of_mem hs), by rw [hk s hs]; exact h⟩

theorem unlist_reads {g : Asn → Bool} {r : Nat} {ss : List Asn} : (∃ s ∈ unlist g ss, r ∈ s.snk) ↔ ∃ s ∈ ss, r ∈ s.snk := by
  constructor
  · rintro ⟨s, hs, h⟩
    obtain ⟨y, hy, rfl⟩ := mem_unlist hs
    exact ⟨y, hy, h⟩
  · rintro ⟨s, hs, h⟩
    refine ⟨_, List.mem_map_of_mem hs, ?_⟩
    split <;> exact h

theorem process_reads {I : Info} {d : Dir} {q w r : Nat} {ss ss' : List Asn} (hr : r ≠ w) (h : process I d q w ss = .ok ss') :
    (∃ s ∈ ss', r ∈ s.snk) ↔ ∃ s ∈ ss, r ∈ s.snk := by
  cases d with
  | inp =>
    simp only [process, processIn] at h
    split at h
    · split at h
      · cases h
        split
        · exact unlist_reads
        · exact Iff.rfl
      · exact moveSrc_reads hr h
    · exact moveSrc_reads hr h
  | out =>
    have hex : ∀ l : List Asn, ss.filter (fun s => decide (q ∈ s.snk)) = l → l ≠ [] → ∃ s ∈ ss, q ∈ s.snk := by
      intro l hl hn
      cases l with
      | nil => exact absurd rfl hn
      | cons x l =>
        have : x ∈ ss.filter (fun s => decide (q ∈ s.snk)) := hl ▸ List.mem_cons_self
        obtain ⟨h1, h2⟩ := List.mem_filter.1 this
        exact ⟨x, h1, of_decide_eq_true h2⟩
    simp only [process, processOut] at h
    split at h
    · cases h; exact Iff.rfl
    · rename_i s hs
      split at h
      · cases h; exact unlist_reads
      · exact moveSnk_reads hr (hex _ hs (by simp)) h
    · rename_i hs _
      exact moveSnk_reads hr (hex _ rfl hs) h
  | inout => cases h

theorem decouple_reads {I : Info} {r : Nat} : ∀ (ps : List (Nat × Dir × Nat)) (ss ss' : List Asn), (∀ p ∈ ps, r ≠ p.2.2) →
    decouple I ps ss = .ok ss' → ((∃ s ∈ ss', r ∈ s.snk) ↔ ∃ s ∈ ss, r ∈ s.snk)
  | [], ss, ss', _, h => by cases h; exact Iff.rfl
  | (q, d, w) :: ps, ss, ss', hr, h => by
    rw [decouple, Res.bind_eq_ok] at h
    obtain ⟨m, hm, h⟩ := h
    rw [decouple_reads ps m ss' (fun p hp => hr p (List.mem_cons_of_mem _ hp)) h, process_reads (hr _ List.mem_cons_self) hm]

/-! ### The theorems -/

/-- What can stand in a port connection: a name, a number or a parameter, possibly cast, or a part of a variable of the parent. -/
inductive Plain (I : Info) : E → Prop
  | var {v : Nat} : I.gen v = 0 ∨ I.port v = false → Plain I (.var v)
  | const {k : Int} : Plain I (.const k)
  | param {k : Nat} : Plain I (.param k)
  | cast {k : Nat} {e : E} : Plain I e → Plain I (.cast k e)
  | sl {e : E} {hi lo : Nat} : genOf I e = some 0 → Plain I (.sl e hi lo)
  | ix {e i : E} : genOf I e = some 0 → Plain I (.ix e i)

theorem plain_spec {I : Info} {e : E} (h : plain I e = true) : Plain I e := by
  cases e with
  | var v =>
    simp only [plain, Bool.or_eq_true, Bool.not_eq_true', beq_iff_eq] at h
    exact .var h.symm
  | const k => exact .const
  | param k => exact .param
  | _ => cases h

theorem okSrc_spec {I : Info} {e : E} (h : okSrc I e = true) : Plain I e := by
  cases e with
  | cast k e => exact .cast (plain_spec h)
  | _ => exact plain_spec (by exact h)

theorem okIn_spec {I : Info} {e : E} (h : okIn I e = true) : Plain I e := by
  rw [okIn, Bool.or_eq_true, Bool.and_eq_true, beq_iff_eq] at h
  rcases h with h | ⟨h1, h2⟩
  · exact okSrc_spec h
  · cases e with
    | sl e hi lo => exact .sl h2
    | ix e i => exact .ix h2
    | _ => cases h1

theorem okOut_spec {I : Info} {e : E} (h : okOut I e = true) : Plain I e := by
  rw [okOut, Bool.and_eq_true] at h
  exact okSrc_spec h.1

/-- What both passes leave, from the invariant. -/
theorem finish {V : Type} {O : Ops V} {B : List (V × V) → Prop} {I : Info} {ps : List (Nat × Dir)} {t ss' : List Asn} {m : List (Nat × E)}
    {done : List (Nat × Dir)} (ha : After I done [] t) (hd : ∀ p, p ∈ done ↔ p ∈ ps) (h : instantiate I ps t = .ok (m, ss')) (ρ : Nat → V) :
    All O B ρ t ↔ Holds O B ρ ss' ∧ Wired O ρ m := by
  obtain ⟨rfl, h2, h3, _, _⟩ := instantiate_spec ps t ss' m h
  have good : ∀ p ∈ ps, ∀ s ∈ t, hit I p.2 p.1 s = true → s.top = true ∧ s.shown = s.right ∧
      (ev O ρ s.left = ev O ρ s.shown ↔ ρ p.1 = ev O ρ (conn p.2 s)) := by
    intro p hp s hs hh
    have hg := done_good (ha.dones p ((hd p).2 hp)) hs (hit_reg hh)
    obtain ⟨ht, hg⟩ := hg
    have hsh : s.shown = s.right := by
      rcases ha.inv.shown s hs with h | ⟨h, _⟩
      · exact h
      · rw [ha.inv.top s hs ht] at h; cases h
    refine ⟨ht, hsh, ?_⟩
    rw [hsh]
    obtain ⟨q, d⟩ := p
    cases d with
    | inp => simp only at hg; simp only [hg.1, ev, conn]
    | out =>
      simp only at hg; simp only [hg.2, ev, conn]
      exact ⟨fun h => h.symm, fun h => h.symm⟩
    | inout => cases hg
  have hb : inBlocks O ρ (unlist (fun s => ps.any fun p => hit I p.2 p.1 s) t) = inBlocks O ρ t := by
    rw [unlist]
    exact inBlocks_map t fun s _ => by split <;> exact ⟨rfl, rfl, rfl⟩
  constructor
  · rintro ⟨a1, a2⟩
    refine ⟨⟨fun s hs ht _ => ?_, by rw [hb]; exact a2⟩, fun x hx => ?_⟩
    · obtain ⟨y, hy, rfl⟩ := mem_unlist hs
      exact a1 y hy ht
    · obtain ⟨p, hp, hx1, s, hs, hh, hx2⟩ := h3 x hx
      obtain ⟨ht, _, hi⟩ := good p hp s hs hh
      rw [hx1, hx2]
      exact hi.1 (a1 s hs ht)
  · rintro ⟨⟨b1, b2⟩, b3⟩
    refine ⟨fun s hs ht => ?_, by rw [← hb]; exact b2⟩
    have key : ∀ p ∈ ps, hit I p.2 p.1 s = true → ev O ρ s.left = ev O ρ s.shown := fun p hp hh =>
      (good p hp s hs hh).2.2.2 (b3 _ (h2 p hp s hs hh))
    by_cases ha' : (ps.any fun p => hit I p.2 p.1 s) = true
    · obtain ⟨p, hp, hh⟩ := List.any_eq_true.1 ha'
      exact key p hp hh
    · cases hl : s.listed with
      | false =>
        obtain ⟨p, hp, hh⟩ := ha.unl s hs hl
        exact key p ((hd p).1 hp) hh
      | true =>
        have := b1 s (List.mem_map.2 ⟨s, hs, by rw [if_neg ha']⟩) ht hl
        exact this

theorem map_inj {α β : Type} {f : α → β} : ∀ {l : List α}, (l.map f).Nodup → ∀ {x y : α}, x ∈ l → y ∈ l → f x = f y → x = y
  | [], _, x, y, hx, _, _ => by cases hx
  | a :: l, h, x, y, hx, hy, he => by
    rw [List.map_cons, List.nodup_cons] at h
    rcases List.mem_cons.1 hx with rfl | hx'
    · rcases List.mem_cons.1 hy with rfl | hy
      · rfl
      · exact absurd (he ▸ List.mem_map_of_mem hy) h.1
    · rcases List.mem_cons.1 hy with rfl | hy
      · exact absurd (he ▸ List.mem_map_of_mem hx') h.1
      · exact map_inj h.2 hx' hy he

/-- The whole of it. -/
theorem connect_spec {I : Info} {ps : List (Nat × Dir × Nat)} {ss ss' : List Asn} {m : List (Nat × E)} (hs : Start ss) (hp : Ports I ps ss)
    (h : connect I ps ss = .ok (m, ss')) :
    ∃ t done, decouple I ps ss = .ok t ∧ After I done [] t ∧ (∀ p, p ∈ done ↔ p ∈ ps.map fun p => (p.1, p.2.1)) ∧
      instantiate I (ps.map fun p => (p.1, p.2.1)) t = .ok (m, ss') ∧
      ∀ {V : Type} {O : Ops V} {B : List (V × V) → Prop}, (∀ q k, I.special q = some k → ∀ x, O.cast k x = x) →
        ∀ ρ : Nat → V, All O B ρ ss ↔ ∃ σ : Nat → V, (∀ v, v ∉ ps.map (fun p => p.2.2) → σ v = ρ v) ∧ All O B σ t := by
  rw [connect, Res.bind_eq_ok] at h
  obtain ⟨t, ht, h⟩ := h
  have hd : ∀ {V : Type} {O : Ops V} {B : List (V × V) → Prop}, (∀ q k, I.special q = some k → ∀ x, O.cast k x = x) → _ :=
    fun {V O B} hO => decouple_all (V := V) (O := O) (B := B) hO ps [] ss t (start_after hs hp)
      (fun p hpp => ⟨(hp.child p hpp).1, (hp.child p hpp).2, (hp.fresh p hpp).2⟩) hp.nodup hp.news (fun p hpp => by cases hpp) ht
  let O1 : Ops Unit := ⟨fun _ => (), fun _ => (), fun _ _ _ => (), fun _ _ => (), fun _ _ => (), fun _ _ _ => (), fun _ => (), fun _ _ => (),
    fun _ _ => (), fun _ _ _ => (), fun _ _ => (), fun _ _ => ()⟩
  obtain ⟨⟨done, h1, h2⟩, _⟩ := hd (V := Unit) (O := O1) (B := fun _ => True) (fun _ _ _ _ => rfl)
  refine ⟨t, done, ht, h1, fun p => by rw [h2]; simp, h, fun {V O B} hO ρ => (hd (V := V) (O := O) (B := B) hO).2 ρ⟩

/-- If both passes accept the design, every combination of signal values allowed by the parent's statements is allowed by the remaining
statements and the port connections together, and the other way round; only the new variables are added.  Whatever the operators mean
(`O`) and whatever the blocks do (`B`), as long as the casts that print nothing change no value. -/
theorem connect_partial {V : Type} (O : Ops V) (B : List (V × V) → Prop) (I : Info) (ps : List (Nat × Dir × Nat)) (ss ss' : List Asn)
    (m : List (Nat × E)) (hO : ∀ q k, I.special q = some k → ∀ x, O.cast k x = x) (hs : Start ss) (hp : Ports I ps ss)
    (h : connect I ps ss = .ok (m, ss')) (ρ : Nat → V) :
    Holds O B ρ ss ↔ ∃ σ : Nat → V, (∀ v, v ∉ ps.map (fun p => p.2.2) → σ v = ρ v) ∧ Holds O B σ ss' ∧ Wired O σ m := by
  obtain ⟨t, done, ht, ha, hd, hi, hsem⟩ := connect_spec hs hp h
  have : Holds O B ρ ss ↔ All O B ρ ss :=
    ⟨fun h => ⟨fun s hs' ht => h.1 s hs' ht (hs.listed s hs'), h.2⟩, fun h => ⟨fun s hs' ht _ => h.1 s hs' ht, h.2⟩⟩
  rw [this, hsem hO ρ]
  refine exists_congr fun σ => and_congr_right fun _ => ?_
  exact finish ha hd hi σ

/-- Every instance gets each of its inputs once, and each output at most once, exactly those that are read. -/
theorem connect_ports (I : Info) (ps : List (Nat × Dir × Nat)) (ss ss' : List Asn) (m : List (Nat × E)) (hs : Start ss) (hp : Ports I ps ss)
    (h : connect I ps ss = .ok (m, ss')) :
    (m.map fun x => x.1).Nodup ∧ (∀ x ∈ m, x.1 ∈ ps.map fun p => p.1) ∧
    ∀ q d w, (q, d, w) ∈ ps → (d = .inp → q ∈ m.map fun x => x.1) ∧ (d = .out → (q ∈ (m.map fun x => x.1) ↔ ∃ s ∈ ss, q ∈ s.snk)) := by
  obtain ⟨t, done, ht, ha, hd, hi, _⟩ := connect_spec hs hp h
  obtain ⟨_, h2, h3, h4, h5⟩ := instantiate_spec _ t ss' m hi
  have hn : ((ps.map fun p => (p.1, p.2.1)).map fun p => p.1).Nodup := by
    rw [List.map_map]; exact hp.nodup
  refine ⟨?_, fun x hx => ?_, fun q d w hq => ⟨fun hdi => ?_, fun hdo => ?_⟩⟩
  · rw [h4]
    exact List.Sublist.nodup (List.Sublist.map _ List.filter_sublist) hn
  · obtain ⟨p, hpp, hx1, _⟩ := h3 x hx
    obtain ⟨y, hy, rfl⟩ := List.mem_map.1 hpp
    rw [hx1]; exact List.mem_map_of_mem hy
  · have hm : (q, d) ∈ ps.map fun p => (p.1, p.2.1) := List.mem_map.2 ⟨_, hq, rfl⟩
    obtain ⟨s, hs', hh⟩ := h5 _ hm hdi
    exact List.mem_map.2 ⟨_, h2 _ hm s hs' hh, rfl⟩
  · subst hdo
    have hm : (q, Dir.out) ∈ ps.map fun p => (p.1, p.2.1) := List.mem_map.2 ⟨_, hq, rfl⟩
    rw [← decouple_reads ps ss t (fun p hpp he => (hp.child _ hq).1 (by have := (hp.fresh p hpp).2.1; rw [← he] at this; exact this)) ht]
    constructor
    · intro hmm
      obtain ⟨x, hx, rfl⟩ := List.mem_map.1 hmm
      obtain ⟨p, hpp, hx1, s, hs', hh, _⟩ := h3 x hx
      obtain ⟨y, hy, rfl⟩ := List.mem_map.1 hpp
      have he := map_inj (f := fun p : Nat × Dir × Nat => p.1) hp.nodup hy hq hx1.symm
      subst he
      simp only [hit, Bool.and_eq_true] at hh
      exact ⟨s, hs', of_decide_eq_true hh.1⟩
    · rintro ⟨s, hs', hr⟩
      have hg := done_good (ha.dones _ ((hd _).2 hm)) hs' (show reg .out q s = true from decide_eq_true hr)
      obtain ⟨_, hg⟩ := hg
      simp only [okOut, Bool.and_eq_true] at hg
      refine List.mem_map.2 ⟨_, h2 _ hm s hs' ?_, rfl⟩
      simp only [hit, Bool.and_eq_true]
      exact ⟨decide_eq_true hr, hg.1.2⟩

/-- What the ports are connected to can stand in a port connection. -/
theorem connect_plain (I : Info) (ps : List (Nat × Dir × Nat)) (ss ss' : List Asn) (m : List (Nat × E)) (hs : Start ss) (hp : Ports I ps ss)
    (h : connect I ps ss = .ok (m, ss')) : ∀ x ∈ m, Plain I x.2 ∧ genOf I x.2 = some 0 := by
  obtain ⟨t, done, ht, ha, hd, hi, _⟩ := connect_spec hs hp h
  obtain ⟨_, h2, h3, h4, h5⟩ := instantiate_spec _ t ss' m hi
  intro x hx
  obtain ⟨p, hpp, hx1, s, hs', hh, hx2⟩ := h3 x hx
  have hg := done_good (ha.dones p ((hd p).2 hpp)) hs' (hit_reg hh)
  obtain ⟨_, hg⟩ := hg
  obtain ⟨q, d⟩ := p
  rw [hx2]
  cases d with
  | inp =>
    simp only at hg
    simp only [hit, Bool.and_eq_true, beq_iff_eq] at hh
    exact ⟨okIn_spec hg.2, hh.2⟩
  | out =>
    simp only at hg
    simp only [hit, Bool.and_eq_true, beq_iff_eq] at hh
    exact ⟨okOut_spec hg.1, hh.2⟩
  | inout => cases hg

/-! ### Proof: the names left in the parent -/

section
variable {q r : Nat} {n : E}

mutual
theorem mentions_subst (hn : ¬ Mentions r n) : ∀ e : E, Mentions r (subst q n e) → Mentions r e
  | .var v, h => by
    rw [subst] at h; split at h
    · exact absurd h hn
    · exact h
  | .const _, h => h
  | .param _, h => h
  | .sl e _ _, h => .sl (mentions_subst hn e (mentions_sl.1 h))
  | .ix e i, h => (mentions_ix.1 h).elim (fun h => .ix (mentions_subst hn e h)) fun h => .index (mentions_subst hn i h)
  | .un _ a, h => .un (mentions_subst hn a (mentions_un.1 h))
  | .bin _ a b, h => (mentions_bin.1 h).elim (fun h => .binL (mentions_subst hn a h)) fun h => .binR (mentions_subst hn b h)
  | .cat xs, h => .cat (mentionsL_substs hn xs (mentions_cat.1 h))
  | .ext _ a, h => .ext (mentions_subst hn a (mentions_ext.1 h))
  | .dup _ a, h => .dup (mentions_subst hn a (mentions_dup.1 h))
  | .ite c a b, h => by
    rcases mentions_ite.1 h with h | h | h
    · exact .cond (mentions_subst hn c h)
    · exact .thn (mentions_subst hn a h)
    · exact .els (mentions_subst hn b h)
  | .cast _ a, h => .cast (mentions_subst hn a (mentions_cast.1 h))
  | .call _ xs, h => .call (mentionsL_substs hn xs (mentions_call.1 h))
theorem mentionsL_substs (hn : ¬ Mentions r n) : ∀ xs : Es, MentionsL r (substs q n xs) → MentionsL r xs
  | .nil, h => h
  | .cons x xs, h => (mentionsL_cons.1 h).elim (fun h => .head (mentions_subst hn x h)) fun h => .tail (mentionsL_substs hn xs h)
end

theorem sliced_subst (hn : ¬ Mentions r n) (hq : r ≠ q) : ∀ e : E, Sliced r e → Sliced r (subst q n e)
  | _, .var => by rw [subst, if_neg hq]; exact .var
  | _, .sl h => .sl (sliced_subst hn hq _ h)
  | _, .ix h hi => .ix (sliced_subst hn hq _ h) fun x => hi (mentions_subst hn _ x)

theorem subst_var (hn : n ≠ .var r) (hq : r ≠ q) (x : E) : subst q n x = .var r ↔ x = .var r := by
  constructor
  · intro h
    cases x with
    | var v =>
      rw [subst] at h; split at h
      · exact absurd h hn
      · exact h
    | _ => simp only [subst] at h; cases h
  · rintro rfl
    rw [subst, if_neg hq]

theorem occurs_substs (hn : n ≠ .var r) (hq : r ≠ q) : ∀ xs : Es, occurs r (substs q n xs) = occurs r xs
  | .nil => rfl
  | .cons x xs => by
    simp only [substs, occurs, occurs_substs hn hq xs, subst_var hn hq]

mutual
theorem found_subst (hn : ¬ Mentions r n) (hn' : ∀ b s, Found r b s n) (hq : r ≠ q) : ∀ (e : E) (b s : Bool),
    Found r b s e → Found r b s (subst q n e)
  | .var v, b, s, h => by
    rw [subst]; split
    · exact hn' b s
    · exact h
  | .const _, _, _, h => h
  | .param _, _, _, h => h
  | .sl e hi lo, b, s, h => by
    simp only [Found] at h
    rw [subst, Found]
    exact h.imp (fun h x => h (mentions_subst hn e x)) fun h => ⟨h.1, sliced_subst hn hq (.sl e hi lo) h.2⟩
  | .ix e i, b, s, h => by
    simp only [Found] at h
    rw [subst, Found]
    exact h.imp (fun h => ⟨fun x => h.1 (mentions_subst hn e x), fun x => h.2 (mentions_subst hn i x)⟩)
      fun h => ⟨h.1, sliced_subst hn hq (.ix e i) h.2⟩
  | .un _ a, b, s, h => by
    simp only [Found] at h; rw [subst, Found]; exact found_subst hn hn' hq a _ _ h
  | .bin _ a c, b, s, h => by
    simp only [Found] at h; rw [subst, Found]; exact ⟨found_subst hn hn' hq a _ _ h.1, found_subst hn hn' hq c _ _ h.2⟩
  | .cat xs, b, s, h => by
    simp only [Found] at h; rw [subst, Found]
    refine ⟨?_, founds_subst hn hn' hq xs h.2⟩
    rw [occurs_substs (fun he => hn (by rw [he]; exact .var)) hq]; exact h.1
  | .ext _ a, b, s, h => by
    simp only [Found] at h; rw [subst, Found]; exact found_subst hn hn' hq a _ _ h
  | .dup _ a, b, s, h => by
    simp only [Found] at h; rw [subst, Found]; exact found_subst hn hn' hq a _ _ h
  | .ite c a d, b, s, h => by
    simp only [Found] at h; rw [subst, Found]
    exact ⟨found_subst hn hn' hq c _ _ h.1, found_subst hn hn' hq a _ _ h.2.1, found_subst hn hn' hq d _ _ h.2.2⟩
  | .cast _ a, b, s, h => by
    simp only [Found] at h; rw [subst, Found]; exact fun x => h (mentions_subst hn a x)
  | .call _ xs, b, s, h => by
    simp only [Found] at h; rw [subst, Found]; exact fun x => h (mentionsL_substs hn xs x)
theorem founds_subst (hn : ¬ Mentions r n) (hn' : ∀ b s, Found r b s n) (hq : r ≠ q) : ∀ xs : Es, Founds r xs → Founds r (substs q n xs)
  | .nil, h => h
  | .cons x xs, h => by
    simp only [Founds] at h; rw [substs, Founds]
    refine ⟨h.1.imp (fun h => ?_) (found_subst hn hn' hq x _ _), founds_subst hn hn' hq xs h.2⟩
    rw [h, subst, if_neg hq]
end

theorem foundCast_subst (hn : ¬ Mentions r n) (hn' : ∀ b s, Found r b s n) (hc : FoundCast r n) (hq : r ≠ q) : ∀ e : E,
    FoundCast r e → FoundCast r (subst q n e)
  | .cast _ a, h => foundCast_subst hn hn' hc hq a h
  | .var v, h => by
    rw [subst]; split
    · exact hc
    · exact h
  | .const _, h => h
  | .param _, h => h
  | .sl e hi lo, h => found_subst hn hn' hq (.sl e hi lo) true true h
  | .ix e i, h => found_subst hn hn' hq (.ix e i) true true h
  | .un o a, h => found_subst hn hn' hq (.un o a) true true h
  | .bin o a b, h => found_subst hn hn' hq (.bin o a b) true true h
  | .cat xs, h => found_subst hn hn' hq (.cat xs) true true h
  | .ext w a, h => found_subst hn hn' hq (.ext w a) true true h
  | .dup k a, h => found_subst hn hn' hq (.dup k a) true true h
  | .ite c a b, h => found_subst hn hn' hq (.ite c a b) true true h
  | .call f xs, h => found_subst hn hn' hq (.call f xs) true true h

theorem found_var {r v : Nat} (h : r ≠ v) (b s : Bool) : Found r b s (.var v) := by
  rw [Found]; exact fun he => absurd he.symm h

theorem newVar_found {I : Info} {q r w : Nat} (h : r ≠ w) : (∀ b s, Found r b s (newVar I q w)) ∧ FoundCast r (newVar I q w) := by
  rw [newVar]
  cases I.special q with
  | none => exact ⟨found_var h, found_var h true true⟩
  | some k =>
    refine ⟨fun b s => ?_, found_var h true true⟩
    simp only [Found]
    exact fun hm => h (mentions_var.1 hm).symm

end

/-- References to the port that `decouple` will find: on the left for an input, on the right for an output, and registered. -/
def Vis (r : Nat) (d : Dir) (s : Asn) : Prop :=
  match d with
  | .inp => ¬ Mentions r s.right ∧ ¬ Mentions r s.shown ∧ FoundCast r s.left ∧ (Mentions r s.left → r ∈ s.src)
  | .out => ¬ Mentions r s.left ∧ FoundCast r s.right ∧ (Mentions r s.shown → Mentions r s.right) ∧ (Mentions r s.right → r ∈ s.snk) ∧
      (s.kind = .test → Mentions r s.right → s.right.isExpr = true)
  | .inout => True

/-- Only the statement that will become the connection mentions the port. -/
def Shut (r : Nat) (d : Dir) (s : Asn) : Prop :=
  match d with
  | .inp => ¬ Mentions r s.shown ∧ (Mentions r s.left → r ∈ s.src)
  | .out => ¬ Mentions r s.left ∧ (Mentions r s.shown → r ∈ s.snk)
  | .inout => True

theorem vis_shut {r : Nat} {d : Dir} {s : Asn} (h : Vis r d s) : Shut r d s := by
  cases d with
  | inp => exact ⟨h.2.1, h.2.2.2⟩
  | out => exact ⟨h.1, fun x => h.2.2.2.1 (h.2.2.1 x)⟩
  | inout => trivial

theorem vis_unlist {r : Nat} {d : Dir} {g : Asn → Bool} {ss : List Asn} (h : ∀ s ∈ ss, Vis r d s) : ∀ s ∈ unlist g ss, Vis r d s := by
  intro s hs
  obtain ⟨x, hx, rfl⟩ := mem_unlist hs
  have := h x hx
  cases d <;> exact this

theorem shut_unlist {r : Nat} {d : Dir} {g : Asn → Bool} {ss : List Asn} (h : ∀ s ∈ ss, Shut r d s) : ∀ s ∈ unlist g ss, Shut r d s := by
  intro s hs
  obtain ⟨x, hx, rfl⟩ := mem_unlist hs
  have := h x hx
  cases d <;> exact this

theorem isExpr_subst {q : Nat} {n e : E} (h : e.isExpr = true) : (subst q n e).isExpr = true := by
  cases e with
  | var v => cases h
  | _ => simp only [subst]; exact h

theorem moveSrc_vis {I : Info} {q w : Nat} {ss ss' : List Asn} (hqw : q ≠ w) (hsrc : ∀ s ∈ ss, q ∈ s.src → Mentions q s.left)
    (hv : ∀ s ∈ ss, Vis q .inp s) (h : moveSrc I q w ss = .ok ss') :
    (∀ s ∈ ss', Shut q .inp s) ∧ ∀ r d, r ≠ q → r ≠ w → ((∀ s ∈ ss, Vis r d s) → ∀ s ∈ ss', Vis r d s) ∧
      ((∀ s ∈ ss, Shut r d s) → ∀ s ∈ ss', Shut r d s) := by
  rw [moveSrc] at h
  obtain ⟨m, hm, rfl⟩ := map_ok h
  obtain ⟨rfl, hf⟩ := mapRes_eq ss m hm
  have hnq : ∀ r, r ≠ w → ¬ Mentions r (newVar I q w) := fun r hr hx => hr (newVar_mentions hx)
  have cs : ∀ s ∈ ss, (q ∉ s.src ∧ total (srcOne q w (newVar I q w)) s = s) ∨
      (q ∈ s.src ∧ total (srcOne q w (newVar I q w)) s =
        { s with left := subst q (newVar I q w) s.left, src := w :: s.src.filter (· ≠ q) }) := by
    intro s hs
    rcases srcOne_cases (hf s hs) with h | ⟨h1, l, hl, he⟩
    · exact .inl h
    · refine .inr ⟨h1, ?_⟩
      rw [he, (replace_exact q _ s.left l (hnq q hqw) (hsrc s hs h1) hl).2 (hv s hs).2.2.1]
  refine ⟨fun s hs => ?_, fun r d hr hw => ⟨fun hx s hs => ?_, fun hx s hs => ?_⟩⟩
  · rcases List.mem_append.1 hs with hs | hs
    · obtain ⟨y, hy, rfl⟩ := List.mem_map.1 hs
      rcases cs y hy with ⟨h1, h2⟩ | ⟨h1, h2⟩ <;> rw [h2]
      · exact vis_shut (hv y hy)
      · exact ⟨(hv y hy).2.1, fun hx => absurd hx (not_mentions_subst (hnq q hqw) _)⟩
    · rw [List.mem_singleton.1 hs]
      exact ⟨hnq q hqw, fun _ => List.mem_cons_self⟩
  · rcases List.mem_append.1 hs with hs | hs
    · obtain ⟨y, hy, rfl⟩ := List.mem_map.1 hs
      have hy' := hx y hy
      rcases cs y hy with ⟨h1, h2⟩ | ⟨h1, h2⟩ <;> rw [h2]
      · exact hy'
      · cases d with
        | inp =>
          exact ⟨hy'.1, hy'.2.1, foundCast_subst (hnq r hw) (newVar_found hw).1 (newVar_found hw).2 hr _ hy'.2.2.1,
            fun hm => (mem_moved hr hw).2 (hy'.2.2.2 (mentions_subst (hnq r hw) _ hm))⟩
        | out => exact ⟨fun hm => hy'.1 (mentions_subst (hnq r hw) _ hm), hy'.2⟩
        | inout => trivial
    · rw [List.mem_singleton.1 hs]
      cases d with
      | inp => exact ⟨hnq r hw, hnq r hw, found_var hr true true, fun hm => absurd (mentions_var.1 hm).symm hr⟩
      | out => exact ⟨fun hm => hr (mentions_var.1 hm).symm, (newVar_found hw).2, fun h => h, fun hm => absurd hm (hnq r hw), fun hk => by cases hk⟩
      | inout => trivial
  · rcases List.mem_append.1 hs with hs | hs
    · obtain ⟨y, hy, rfl⟩ := List.mem_map.1 hs
      have hy' := hx y hy
      rcases cs y hy with ⟨h1, h2⟩ | ⟨h1, h2⟩ <;> rw [h2]
      · exact hy'
      · cases d with
        | inp => exact ⟨hy'.1, fun hm => (mem_moved hr hw).2 (hy'.2 (mentions_subst (hnq r hw) _ hm))⟩
        | out => exact ⟨fun hm => hy'.1 (mentions_subst (hnq r hw) _ hm), hy'.2⟩
        | inout => trivial
    · rw [List.mem_singleton.1 hs]
      cases d with
      | inp => exact ⟨hnq r hw, fun hm => absurd (mentions_var.1 hm).symm hr⟩
      | out => exact ⟨fun hm => hr (mentions_var.1 hm).symm, fun hm => absurd hm (hnq r hw)⟩
      | inout => trivial

theorem moveSnk_vis {q w : Nat} {ss ss' : List Asn} (hqw : q ≠ w) (hsnk : ∀ s ∈ ss, q ∈ s.snk → Mentions q s.right ∨ Mentions q s.left)
    (hsh : ∀ s ∈ ss, s.shown = s.right ∨ (s.kind = .test ∧ s.right.isExpr = false))
    (hv : ∀ s ∈ ss, Vis q .out s) (h : moveSnk q w ss = .ok ss') :
    (∀ s ∈ ss', Shut q .out s) ∧ ∀ r d, r ≠ q → r ≠ w → ((∀ s ∈ ss, Vis r d s) → ∀ s ∈ ss', Vis r d s) ∧
      ((∀ s ∈ ss, Shut r d s) → ∀ s ∈ ss', Shut r d s) := by
  rw [moveSnk] at h
  obtain ⟨m, hm, rfl⟩ := map_ok h
  obtain ⟨rfl, hf⟩ := mapRes_eq ss m hm
  have hnq : ∀ r, r ≠ w → ¬ Mentions r (.var w) := fun r hr hx => hr (mentions_var.1 hx).symm
  have cs : ∀ s ∈ ss, (q ∉ s.snk ∧ total (snkOne q w) s = s) ∨
      (q ∈ s.snk ∧ s.shown = s.right ∧ (s.kind = .test → s.right.isExpr = true) ∧ total (snkOne q w) s =
        { s with right := subst q (.var w) s.right, shown := subst q (.var w) s.right, snk := w :: s.snk.filter (· ≠ q) }) := by
    intro s hs
    rcases snkOne_cases (hf s hs) with h | ⟨h1, l, hl, he⟩
    · exact .inl h
    · have hmr : Mentions q s.right := (hsnk s hs h1).resolve_right (hv s hs).1
      have hk : s.kind = .assign ∨ s.right.isExpr = true := by
        cases hk : s.kind with
        | assign => exact .inl rfl
        | test => exact .inr ((hv s hs).2.2.2.2 hk hmr)
      refine .inr ⟨h1, ?_, fun hkt => (hv s hs).2.2.2.2 hkt hmr, ?_⟩
      · rcases hsh s hs with h | ⟨h1, h2⟩
        · exact h
        · rcases hk with hk | hk
          · rw [h1] at hk; cases hk
          · rw [h2] at hk; cases hk
      · rw [he, if_pos hk, (replace_exact q _ s.right l (hnq q hqw) hmr hl).2 (hv s hs).2.1]
  refine ⟨fun s hs => ?_, fun r d hr hw => ⟨fun hx s hs => ?_, fun hx s hs => ?_⟩⟩
  · rcases List.mem_append.1 hs with hs | hs
    · obtain ⟨y, hy, rfl⟩ := List.mem_map.1 hs
      rcases cs y hy with ⟨h1, h2⟩ | ⟨h1, h0, hk, h2⟩ <;> rw [h2]
      · exact vis_shut (hv y hy)
      · exact ⟨(hv y hy).1, fun hx => absurd hx (not_mentions_subst (hnq q hqw) _)⟩
    · rw [List.mem_singleton.1 hs]
      exact ⟨hnq q hqw, fun _ => List.mem_cons_self⟩
  · rcases List.mem_append.1 hs with hs | hs
    · obtain ⟨y, hy, rfl⟩ := List.mem_map.1 hs
      have hy' := hx y hy
      rcases cs y hy with ⟨h1, h2⟩ | ⟨h1, h0, hk, h2⟩ <;> rw [h2]
      · exact hy'
      · cases d with
        | inp =>
          exact ⟨fun hm => hy'.1 (mentions_subst (hnq r hw) _ hm), fun hm => hy'.1 (mentions_subst (hnq r hw) _ hm), hy'.2.2⟩
        | out =>
          exact ⟨hy'.1, foundCast_subst (hnq r hw) (found_var hw) (found_var hw true true) hr _ hy'.2.1, fun h => h,
            fun hm => (mem_moved hr hw).2 (hy'.2.2.2.1 (mentions_subst (hnq r hw) _ hm)),
            fun hkt hm => isExpr_subst (hy'.2.2.2.2 hkt (mentions_subst (hnq r hw) _ hm))⟩
        | inout => trivial
    · rw [List.mem_singleton.1 hs]
      have hq' : ¬ Mentions r (.var q) := fun hm => hr (mentions_var.1 hm).symm
      cases d with
      | inp => exact ⟨hq', hq', found_var hw true true, fun hm => absurd hm (hnq r hw)⟩
      | out => exact ⟨hnq r hw, found_var hr true true, fun h => h, fun hm => absurd hm hq', fun hk => by cases hk⟩
      | inout => trivial
  · rcases List.mem_append.1 hs with hs | hs
    · obtain ⟨y, hy, rfl⟩ := List.mem_map.1 hs
      have hy' := hx y hy
      rcases cs y hy with ⟨h1, h2⟩ | ⟨h1, h0, hk, h2⟩ <;> rw [h2]
      · exact hy'
      · cases d with
        | inp => exact ⟨fun hm => hy'.1 (by rw [h0]; exact mentions_subst (hnq r hw) _ hm), hy'.2⟩
        | out => exact ⟨hy'.1, fun hm => (mem_moved hr hw).2 (hy'.2 (by rw [h0]; exact mentions_subst (hnq r hw) _ hm))⟩
        | inout => trivial
    · rw [List.mem_singleton.1 hs]
      have hq' : ¬ Mentions r (.var q) := fun hm => hr (mentions_var.1 hm).symm
      cases d with
      | inp => exact ⟨hq', fun hm => absurd hm (hnq r hw)⟩
      | out => exact ⟨hnq r hw, fun hm => absurd hm hq'⟩
      | inout => trivial

theorem process_vis {I : Info} {q w : Nat} {d : Dir} {ss ss' : List Asn} (hqw : q ≠ w) {ps : List (Nat × Dir × Nat)}
    (hi : Inv ((q, d, w) :: ps) ss) (hv : ∀ s ∈ ss, Vis q d s) (h : process I d q w ss = .ok ss') :
    (∀ s ∈ ss', Shut q d s) ∧ ∀ r d', r ≠ q → r ≠ w → ((∀ s ∈ ss, Vis r d' s) → ∀ s ∈ ss', Vis r d' s) ∧
      ((∀ s ∈ ss, Shut r d' s) → ∀ s ∈ ss', Shut r d' s) := by
  have hun : ∀ g, (∀ s ∈ unlist g ss, Shut q d s) ∧ ∀ r d', r ≠ q → r ≠ w → ((∀ s ∈ ss, Vis r d' s) → ∀ s ∈ unlist g ss, Vis r d' s) ∧
      ((∀ s ∈ ss, Shut r d' s) → ∀ s ∈ unlist g ss, Shut r d' s) := fun g =>
    ⟨shut_unlist fun s hs => vis_shut (hv s hs), fun r d' _ _ => ⟨vis_unlist, shut_unlist⟩⟩
  have hid : (∀ s ∈ ss, Shut q d s) ∧ ∀ r d', r ≠ q → r ≠ w → ((∀ s ∈ ss, Vis r d' s) → ∀ s ∈ ss, Vis r d' s) ∧
      ((∀ s ∈ ss, Shut r d' s) → ∀ s ∈ ss, Shut r d' s) := ⟨fun s hs => vis_shut (hv s hs), fun r d' _ _ => ⟨id, id⟩⟩
  have hsrc := fun s hs => hi.src s hs _ List.mem_cons_self
  have hsnk := fun s hs => hi.snk s hs _ List.mem_cons_self
  cases d with
  | inp =>
    simp only [process, processIn] at h
    split at h
    · split at h
      · cases h
        split
        · exact hun _
        · exact hid
      · exact moveSrc_vis hqw hsrc hv h
    · exact moveSrc_vis hqw hsrc hv h
  | out =>
    simp only [process, processOut] at h
    split at h
    · cases h; exact hid
    · split at h
      · cases h; exact hun _
      · exact moveSnk_vis hqw hsnk hi.shown hv h
    · exact moveSnk_vis hqw hsnk hi.shown hv h
  | inout => cases h

theorem decouple_vis {I : Info} : ∀ (ps : List (Nat × Dir × Nat)) (done : List (Nat × Dir)) (ss ss' : List Asn), After I done ps ss →
    (∀ p ∈ ps, I.gen p.1 ≠ 0 ∧ I.port p.1 = true ∧ I.gen p.2.2 = 0 ∧ I.port p.2.2 = false) →
    (ps.map fun p => p.1).Nodup → (ps.map fun p => p.2.2).Nodup → (∀ p ∈ done, I.gen p.1 ≠ 0 ∧ ∀ x ∈ ps, p.1 ≠ x.1) →
    (∀ p ∈ ps, ∀ s ∈ ss, Vis p.1 p.2.1 s) → (∀ p ∈ done, ∀ s ∈ ss, Shut p.1 p.2 s) → decouple I ps ss = .ok ss' →
    (∀ p ∈ done, ∀ s ∈ ss', Shut p.1 p.2 s) ∧ ∀ p ∈ ps, ∀ s ∈ ss', Shut p.1 p.2.1 s
  | [], done, ss, ss', _, _, _, _, _, _, hd, h => by
    cases h
    exact ⟨hd, fun p hp => by cases hp⟩
  | (q, d, w) :: ps, done, ss, ss', ha, hp, hn1, hn2, hdn, hvis, hsh, h => by
    rw [decouple, Res.bind_eq_ok] at h
    obtain ⟨m, hm, h⟩ := h
    obtain ⟨p1, p2, p3, p4⟩ := hp _ List.mem_cons_self
    rw [List.map_cons, List.nodup_cons] at hn1 hn2
    have c : Ctx I done q w ps := ⟨p1, p2, p3, p4, fun p hpd => ⟨(hdn p hpd).2 _ List.mem_cons_self, (hdn p hpd).1⟩, fun p hps =>
      ⟨fun he => hn1.1 (List.mem_map.2 ⟨p, hps, he⟩), (hp p (List.mem_cons_of_mem _ hps)).1,
        fun he => hn2.1 (List.mem_map.2 ⟨p, hps, he⟩), (hp p (List.mem_cons_of_mem _ hps)).2.2.1⟩⟩
    have ha' := process_after c ha.inv ha.dones ha.unl hm
    obtain ⟨v1, v2⟩ := process_vis c.ne ha.inv (hvis _ List.mem_cons_self) hm
    obtain ⟨h1, h2⟩ := decouple_vis ps ((q, d) :: done) m ss' ha' (fun p hps => hp p (List.mem_cons_of_mem _ hps)) hn1.2 hn2.2
      (fun p hpd => by
        rcases List.mem_cons.1 hpd with rfl | hpd
        · exact ⟨p1, fun x hx he => (c.rest x hx).1 he.symm⟩
        · exact ⟨(hdn p hpd).1, fun x hx => (hdn p hpd).2 x (List.mem_cons_of_mem _ hx)⟩)
      (fun p hps => (v2 p.1 p.2.1 (c.rest p hps).1 (fun he => (c.rest p hps).2.1 (he ▸ p3))).1 (hvis p (List.mem_cons_of_mem _ hps)))
      (fun p hpd => by
        rcases List.mem_cons.1 hpd with rfl | hpd
        · exact v1
        · exact (v2 p.1 p.2 (c.dones p hpd).1 (fun he => (hdn p hpd).1 (he ▸ p3))).2 (hsh p hpd)) h
    refine ⟨fun p hpd => h1 p (List.mem_cons_of_mem _ hpd), fun p hps => ?_⟩
    rcases List.mem_cons.1 hps with rfl | hps
    · exact h1 (q, d) List.mem_cons_self
    · exact h2 p hps

/-- References to the ports of children are where they can be replaced: inputs only on the left and outputs only on the right, in the
places of `Replace.FoundCast`; an `if` or `case` does not test an output directly; all are registered. -/
structure Visible (ps : List (Nat × Dir × Nat)) (ss : List Asn) : Prop where
  inp : ∀ q w, (q, .inp, w) ∈ ps → ∀ s ∈ ss, ¬ Mentions q s.right ∧ FoundCast q s.left ∧ (Mentions q s.left → q ∈ s.src)
  out : ∀ q w, (q, .out, w) ∈ ps → ∀ s ∈ ss, ¬ Mentions q s.left ∧ FoundCast q s.right ∧ (Mentions q s.right → q ∈ s.snk) ∧
    (s.kind = .test → Mentions q s.right → s.right.isExpr = true)

/-- Then neither the statements left in the parent nor the connections mention a port of a child: together with `connect_partial`, the
text of the parent says the same as the parent did. -/
theorem connect_closed (I : Info) (ps : List (Nat × Dir × Nat)) (ss ss' : List Asn) (m : List (Nat × E)) (hs : Start ss) (hp : Ports I ps ss)
    (hv : Visible ps ss) (h : connect I ps ss = .ok (m, ss')) : ∀ p ∈ ps,
    (∀ s ∈ ss', s.listed = true → ¬ Mentions p.1 s.left ∧ ¬ Mentions p.1 s.shown) ∧ ∀ x ∈ m, ¬ Mentions p.1 x.2 := by
  have hst := start_after hs hp
  obtain ⟨t, done, ht, ha, hd, hi, _⟩ := connect_spec hs hp h
  obtain ⟨rfl, h2, h3, h4, h5⟩ := instantiate_spec _ t ss' m hi
  obtain ⟨_, hsh⟩ := decouple_vis ps [] ss t hst (fun p hpp => ⟨(hp.child p hpp).1, (hp.child p hpp).2, (hp.fresh p hpp).2⟩) hp.nodup hp.news
    (fun p hpp => by cases hpp) (fun p hpp s hs' => by
      obtain ⟨q, d, w⟩ := p
      cases d with
      | inp =>
        obtain ⟨a, b, c⟩ := hv.inp q w hpp s hs'
        exact ⟨a, by rw [hs.shown s hs']; exact a, b, c⟩
      | out =>
        obtain ⟨a, b, c, e⟩ := hv.out q w hpp s hs'
        exact ⟨a, b, by rw [hs.shown s hs']; exact fun h => h, c, e⟩
      | inout => trivial) (fun p hpp => by cases hpp) ht
  rintro ⟨q, d, w⟩ hpp
  have hm : (q, d) ∈ ps.map fun p => (p.1, p.2.1) := List.mem_map.2 ⟨_, hpp, rfl⟩
  have hdn := ha.dones _ ((hd _).2 hm)
  have hitreg : ∀ s ∈ t, reg d q s = true → hit I d q s = true := by
    intro s hs' hr
    cases d with
    | inp =>
      obtain ⟨s2, hs2, hh⟩ := h5 _ hm rfl
      rcases hdn with ⟨hc, _⟩ | ⟨s3, hs3, _⟩
      · cases hc
      · rw [only hs3 hs' hr, ← only hs3 hs2 (hit_reg hh)]; exact hh
    | out =>
      obtain ⟨_, hg⟩ := done_good hdn hs' hr
      simp only [okOut, Bool.and_eq_true] at hg
      simp only [hit, Bool.and_eq_true]
      exact ⟨hr, hg.1.2⟩
    | inout => cases hr
  constructor
  · intro s hs' hl
    obtain ⟨y, hy, rfl⟩ := mem_unlist hs'
    simp only [Bool.and_eq_true, Bool.not_eq_true', Bool.eq_false_iff] at hl
    have hno : ¬ reg d q y = true := fun hr => hl.2 (List.any_eq_true.2 ⟨_, hm, hitreg y hy hr⟩)
    have hy' := hsh _ hpp y hy
    cases d with
    | inp => exact ⟨fun hx => hno (decide_eq_true (hy'.2 hx)), hy'.1⟩
    | out => exact ⟨hy'.1, fun hx => hno (decide_eq_true (hy'.2 hx))⟩
    | inout =>
      rcases hdn with ⟨hc, _⟩ | ⟨s3, _, _, hg⟩
      · cases hc
      · cases hg
  · intro x hx hx'
    obtain ⟨p, hpm, hx1, s, hs', hh, hx2⟩ := h3 x hx
    have hg := done_good (ha.dones p ((hd p).2 hpm)) hs' (hit_reg hh)
    obtain ⟨htop, hg⟩ := hg
    have hshown : s.shown = s.right := by
      rcases ha.inv.shown s hs' with h | ⟨h, _⟩
      · exact h
      · rw [ha.inv.top s hs' htop] at h; cases h
    obtain ⟨q2, d2⟩ := p
    rw [hx2] at hx'
    cases d2 with
    | inp =>
      simp only [conn, ← hshown] at hx'
      have hy' := hsh _ hpp s hs'
      simp only [hit, Bool.and_eq_true, beq_iff_eq] at hh
      cases d with
      | inp => exact hy'.1 hx'
      | out =>
        obtain ⟨_, hg2⟩ := done_good hdn hs' (show reg .out q s = true from decide_eq_true (hy'.2 hx'))
        simp only at hg2
        have := hh.2
        rw [hg2.2, genOf, Option.some.injEq] at this
        exact (hp.child _ hpp).1 this
      | inout =>
        rcases hdn with ⟨hc, _⟩ | ⟨s3, _, _, hg⟩
        · cases hc
        · cases hg
    | out =>
      simp only at hg
      exact okOut_not hg.1 (hp.child _ hpp).1 hx'
    | inout => cases hg

/-! ### A design meeting the hypotheses

Signals: 1 `a.out`, 2 `b.in`, 3 `b.out`, 4 `b.clk`, 5 `c.in`; 10, 11, 12 of the parent; 20 to 24 the new variables.  Statements:
`b.in = a.out`, `x12[0] = b.out[0]` and `x12[1] = a.out + x10` in a block, `b.clk = clock(x11)`, `c.in[3:0] = x12`, `c.in[7:4] = x10`. -/
section
def exInfo : Info where
  gen v := if v = 1 then 1 else if v = 2 ∨ v = 3 ∨ v = 4 then 2 else if v = 5 then 3 else 0
  pgen _ := 0
  cgen k := if k = 7 then some 9 else some 0
  xgen _ := 0
  port v := v ≤ 5
  special v := if v = 4 then some 0 else none

def exPorts : List (Nat × Dir × Nat) := [(1, .out, 20), (2, .inp, 21), (3, .out, 22), (4, .inp, 23), (5, .inp, 24)]

def exStmts : List Asn :=
  [⟨true, .assign, .var 2, .var 1, .var 1, [2], [1], true⟩,
   ⟨true, .assign, .sl (.var 12) 0 0, .sl (.var 3) 0 0, .sl (.var 3) 0 0, [12], [3], true⟩,
   ⟨false, .assign, .sl (.var 12) 1 1, .bin 0 (.var 1) (.var 10), .bin 0 (.var 1) (.var 10), [12], [1, 10], true⟩,
   ⟨true, .assign, .var 4, .cast 0 (.var 11), .cast 0 (.var 11), [4], [11], true⟩,
   ⟨true, .assign, .sl (.var 5) 3 0, .var 12, .var 12, [5], [12], true⟩,
   ⟨true, .assign, .sl (.var 5) 7 4, .var 10, .var 10, [5], [10], true⟩]

/-- What comes out: `a.out` and `b.out` go to new variables that are read instead, `c.in` comes from a new variable assigned in parts,
`b.in` and `b.clk` are connected directly. -/
example : (connect exInfo exPorts exStmts).map (fun r => (r.1, (r.2.filter fun s => s.listed).map fun s => (s.left, s.shown))) =
    .ok ([(1, .var 20), (2, .var 20), (3, .var 22), (4, .cast 0 (.var 11)), (5, .var 24)],
      [(.sl (.var 12) 0 0, .sl (.var 22) 0 0), (.sl (.var 12) 1 1, .bin 0 (.var 20) (.var 10)), (.sl (.var 24) 3 0, .var 12),
       (.sl (.var 24) 7 4, .var 10)]) := by decide +kernel

example : Start exStmts where
  listed := by decide
  shown := by decide
  top := by decide
  src := by decide +kernel
  snk := by decide +kernel

/-- Decidable form of `Mentions`, for the examples. -/
theorem mentions_dec {t : Nat} {e : E} : Mentions t e ↔ e.sinkOf t = true := (sinkOf_iff e).symm

example : Ports exInfo exPorts exStmts where
  child := by decide
  nodup := by decide
  fresh := by
    intro p hp
    refine ⟨fun s hs => ?_, ?_⟩
    · rw [mentions_dec, mentions_dec]
      revert s p
      decide +kernel
    · revert p; decide
  news := by decide

example : Visible exPorts exStmts where
  inp := by
    intro q w hq s hs
    rw [mentions_dec, mentions_dec]
    simp only [exPorts, List.mem_cons, List.mem_nil_iff, Prod.mk.injEq, reduceCtorEq, false_and, and_false, or_false, false_or] at hq
    simp only [exStmts, List.mem_cons, List.mem_nil_iff, or_false] at hs
    rcases hq with ⟨rfl, _⟩ | ⟨rfl, _⟩ | ⟨rfl, _⟩ <;> rcases hs with rfl | rfl | rfl | rfl | rfl | rfl <;>
      refine ⟨by decide, ?_, by decide⟩ <;> simp [FoundCast, Found, mentions_var] <;> exact .sl .var
  out := by
    intro q w hq s hs
    rw [mentions_dec, mentions_dec]
    simp only [exPorts, List.mem_cons, List.mem_nil_iff, Prod.mk.injEq, reduceCtorEq, false_and, and_false, or_false, false_or] at hq
    simp only [exStmts, List.mem_cons, List.mem_nil_iff, or_false] at hs
    rcases hq with ⟨rfl, _⟩ | ⟨rfl, _⟩ <;> rcases hs with rfl | rfl | rfl | rfl | rfl | rfl <;>
      refine ⟨by decide, ?_, by decide, by decide⟩ <;> simp [FoundCast, Found, mentions_var] <;> exact .sl .var
end

/-! ### Where the claim fails -/

/-- Full claim: whatever is wired in the parent, the passes produce connections and statements that say the same and do not mention the
ports of the children. -/
def ConnectClaim : Prop := ∀ (I : Info) (ps : List (Nat × Dir × Nat)) (ss : List Asn), Start ss → Ports I ps ss →
  ∃ m ss', connect I ps ss = .ok (m, ss') ∧
    ∀ p ∈ ps, ∀ s ∈ ss', s.listed = true → ¬ Mentions p.1 s.left ∧ ¬ Mentions p.1 s.shown

/-- `x10 = extend(a.out)`: the parent's text keeps the name of the child's port, which is not declared there. -/
def extStmts : List Asn := [⟨true, .assign, .var 10, .ext 8 (.var 1), .ext 8 (.var 1), [10], [1], true⟩]

theorem extend_lost : ∃ m ss', connect exInfo [(1, .out, 20)] extStmts = .ok (m, ss') ∧ m = [(1, .var 20)] ∧
    ∃ s ∈ ss', s.listed = true ∧ s.shown = .ext 8 (.var 1) := by
  refine ⟨_, _, rfl, rfl, ?_⟩
  exact ⟨⟨true, .assign, .var 10, .ext 8 (.var 1), .ext 8 (.var 1), [10], [20], true⟩, List.mem_cons_self, rfl, rfl⟩

theorem not_ConnectClaim : ¬ ConnectClaim := by
  intro h
  obtain ⟨m, ss', h1, h2⟩ := h exInfo [(1, .out, 20)] extStmts
    ⟨by decide, by decide, by decide, by decide +kernel, by decide +kernel⟩
    ⟨by decide, by decide, fun p hp => ⟨fun s hs => by
        rw [mentions_dec, mentions_dec]; revert s p; decide +kernel, by revert p; decide⟩, by decide⟩
  obtain ⟨m2, ss2, h3, _, s, hs, hl, he⟩ := extend_lost
  rw [h3] at h1
  cases h1
  exact (h2 _ List.mem_cons_self s hs hl).2 (by rw [he]; exact .ext .var)

/-- An output used as an index: the passes refuse the design. -/
theorem index_refused : connect exInfo [(1, .out, 20)]
    [⟨true, .assign, .var 10, .ix (.var 12) (.var 1), .ix (.var 12) (.var 1), [10], [12, 1], true⟩] = .throw .user := by decide +kernel

/-- An input wired to a number is connected to it. -/
theorem constant_connected (I : Info) (q w : Nat) (k : Int) (hk : I.cgen k = some 0) :
    ∃ ss', connect I [(q, .inp, w)] [⟨true, .assign, .var q, .const k, .const k, [q], [], true⟩] = .ok ([(q, .const k)], ss') ∧
      ∀ s ∈ ss', s.listed = false := by
  have h : genOf I (.const k) = some 0 := hk
  refine ⟨_, by simp [connect, decouple, process, processIn, okIn, okSrc, plain, instantiate, instPort, unlist, h]; rfl, ?_⟩
  simp

/-- An input wired to a constant object that has since been assigned in a generator below another parent (number 9): the port
counts as not connected. -/
theorem constant_refused : connect exInfo [(2, .inp, 20)] [⟨true, .assign, .var 2, .const 7, .const 7, [2], [], true⟩] = .throw .var := by
  decide +kernel

/-- A bidirectional port. -/
theorem inout_refused (I : Info) (q w : Nat) (ss : List Asn) : connect I [(q, .inout, w)] ss = .throw .user := rfl

/-- An input that nobody drives is not reported: it is given a variable that nobody drives. -/
theorem unconnected_missed : ∃ ss', connect exInfo [(2, .inp, 20)] [] = .ok ([(2, .var 20)], ss') ∧ ∀ s ∈ ss', s.listed = false :=
  ⟨_, rfl, by decide⟩

/-- Instantiation alone does not notice that only a part of an input is assigned: the whole port is connected to what the part was
assigned, although the message for slices promises otherwise (src/stmt.cc:913-917). -/
theorem slice_wrong : ∃ ss', instantiate exInfo [(2, .inp)] [⟨true, .assign, .sl (.var 2) 7 4, .var 10, .var 10, [2], [10], true⟩] =
    .ok ([(2, .var 10)], ss') ∧ ∀ s ∈ ss', s.listed = false :=
  ⟨_, rfl, by decide⟩

end Kratos.Decouple
