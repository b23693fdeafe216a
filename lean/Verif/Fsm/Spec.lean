import Verif.Fsm.Model
import Verif.Ir.Reads

/-!
# Specification: what a state diagram means

Independent of how the hardware is built: a machine is a set of states with guarded transitions.
-/

namespace Kratos.Fsm
open Kratos.Ir

/-- The guarded transitions of a state, in declaration order. -/
def guarded (trans : List (Option Guard × SId)) : List (Expr × SId) :=
  trans.filterMap (fun p => p.1.map (fun g => (g.e, p.2)))

/-- Targets of the unconditional transitions. -/
def unconditional (trans : List (Option Guard × SId)) : List SId :=
  (trans.filter (fun p => p.1.isNone)).map Prod.snd

/-- The transition the diagram takes: the first guarded one whose condition holds, otherwise the
unconditional one, otherwise none. -/
def taken (σ : Store) (trans : List (Option Guard × SId)) : Option SId :=
  match (guarded trans).find? (fun p => p.1.eval σ != 0) with
  | some p => some p.2
  | none => (unconditional trans).head?

/-- The next state: stay when no transition is taken. -/
def specNext (W : World) (σ : Store) (s : SId) : SId := (taken σ (W.S s).trans).getD s

/-- The user's reset polarity: active low if the port is declared active low or
`set_reset_high(false)` was called. -/
def resetActive (c : Cfg) (σ : Store) : Prop :=
  if c.rstActiveHigh = some false ∨ c.resetHigh = false then σ c.rst % 2 ^ c.rstW = 0
  else σ c.rst % 2 ^ c.rstW ≠ 0

instance (c : Cfg) (σ : Store) : Decidable (resetActive c σ) := by
  unfold resetActive; infer_instance

/-- The diagram on an input history: `inp k` holds the inputs at the `k`-th event (clock edge or
reset edge), `s0` is the state before event 0. -/
def specRun (W : World) (c : Cfg) (start : SId) (inp : Nat → Store) (s0 : SId) : Nat → SId
  | 0 => s0
  | k + 1 => if resetActive c (inp k) then start else specNext W (inp k) (specRun W c start inp s0 k)

/-! ### Hardware -/

/-- A store with the state register set to `q`. -/
def withReg (cs : VarId) (q : Nat) (σ : Store) : Store := fun v => if v = cs then q else σ v

/-- One event: the combinational block settles, the clocked block runs, its updates are applied.
Result: new contents of the state register. -/
def hwStep (ι : Nat → St → St) (c : Cfg) (r : Realized) (σ : Store) (q : Nat) : Nat :=
  let a := r.comb.exec ι ⟨withReg c.cs q σ, [], .run⟩
  let b := r.seq.exec ι ⟨a.val, [], .run⟩
  b.commit c.cs % 2 ^ r.plan.w

/-- The register over an input history. -/
def hwRun (ι : Nat → St → St) (c : Cfg) (r : Realized) (inp : Nat → Store) (q0 : Nat) : Nat → Nat
  | 0 => q0
  | k + 1 => hwStep ι c r (inp k) (hwRun ι c r inp q0 k)

/-- A call of the Mealy output function: arguments are evaluated on entry, then each output is
assigned. -/
def callSem (args : List (VarId × Nat × Expr)) (st : St) : St :=
  { st with val := args.foldl (fun σ a => σ.write ⟨a.1, 0, a.2.1⟩ (a.2.2.eval st.val)) st.val }

/-- The call statements have the meaning of the output function calls. -/
def CallsMean (W : World) (top : FId) (p : Plan) (ι : Nat → St → St) : Prop :=
  ∀ t args, callArgs (p.outs t) (W.F top).decl = .ok args → ι t = callSem args

/-- The encoding of a state in the enum (0 if it has none). -/
def enc (p : Plan) (s : SId) : Nat := (p.defs.lookup (p.name s)).getD 0

/-- What the surroundings of the FSM guarantee: the state variables are fresh. -/
structure Fresh (W : World) (top : FId) (c : Cfg) (states : List SId) : Prop where
  ne : c.cs ≠ c.ns
  rst : c.rst ≠ c.cs ∧ c.rst ≠ c.ns
  guards : ∀ s ∈ states, ∀ p ∈ guarded (W.S s).trans,
    p.1.reads c.cs = false ∧ p.1.reads c.ns = false
  outs : ∀ d ∈ (W.F top).decl, d.v ≠ c.cs ∧ d.v ≠ c.ns ∧ (c.moore = false → d.v ≠ c.rst)

/-- No state has two unconditional transitions. -/
def OneDefault (W : World) (states : List SId) : Prop :=
  ∀ s ∈ states, (unconditional (W.S s).trans).length ≤ 1

/-- The enum names of the states are pairwise different. -/
def NamesDistinct (W : World) (top : FId) (states : List SId) : Prop :=
  (states.map (stateName W top)).Nodup

end Kratos.Fsm
