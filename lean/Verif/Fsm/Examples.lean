import Verif.Fsm.Mealy
import Verif.Fsm.Construct

/-!
# C34–C37: concrete machines — non-vacuity and counterexamples

All machines below are built through the API (`Reach`).
-/

namespace Kratos.Fsm
open Kratos.Ir

def Call.validB (W : World) : Call → Bool
  | .newFsm _ _ => true
  | .addState f _ => f < W.nF
  | .addChild p c => p < W.nF && c < W.nF
  | .declOutput f _ => f < W.nF
  | .setStart f s => f < W.nF && s < W.nS
  | .next _ s none _ => s < W.nS
  | .next _ s (some t) _ => s < W.nS && t < W.nS
  | .stateOutput s _ => s < W.nS

theorem validB_valid {W : World} {c : Call} (h : c.validB W = true) : c.valid W := by
  cases c with
  | next n s t cond =>
    cases t with
    | none => simp only [Call.validB, decide_eq_true_eq] at h; exact ⟨h, by intro t' e; cases e⟩
    | some t =>
      simp only [Call.validB, Bool.and_eq_true, decide_eq_true_eq] at h
      exact ⟨h.1, by intro t' e; cases e; exact h.2⟩
  | newFsm => trivial
  | addChild p c => simpa [Call.validB, Call.valid] using h
  | setStart p c => simpa [Call.validB, Call.valid] using h
  | _ => simpa [Call.validB, Call.valid] using h

/-- Run a list of calls, all of which must be valid and succeed. -/
def build : World → List Call → Option World
  | W, [] => some W
  | W, c :: cs =>
    if c.validB W then
      match call W c with
      | .ok W' => build W' cs
      | _ => none
    else none

theorem build_reach : ∀ {cs : List Call} {W W' : World}, Reach W → build W cs = some W' → Reach W'
  | [], W, W', h, hb => by simp only [build] at hb; cases hb; exact h
  | c :: cs, W, W', h, hb => by
      simp only [build] at hb
      split at hb
      · rename_i hv
        split at hb
        · rename_i W1 hc
          exact build_reach (.step h (validB_valid hv) hc) hb
        · cases hb
      · cases hb

/-- The world built by a list of calls. -/
def worldOf (cs : List Call) : World := (build emptyWorld cs).getD emptyWorld

theorem worldOf_reach {cs : List Call} (h : (build emptyWorld cs).isSome = true) :
    Reach (worldOf cs) := by
  unfold worldOf
  cases hb : build emptyWorld cs with
  | none => rw [hb] at h; cases h
  | some W => exact build_reach .init hb

def g1 : Guard := ⟨1, .var 2 1⟩
def g2 : Guard := ⟨2, .var 3 1⟩
def lit (v : Int) : OutVal := .val (.const 2 v)

/-- `cs` = 100, `ns` = 101, reset = 1 (active-high port), inputs 2 and 3, output 10. -/
def cfg (moore : Bool) : Cfg := ⟨100, 101, 1, 1, true, some true, true, moore⟩

/-- Three states; `A` goes to `B` on the first guard, to `C` on the second, else to itself. -/
def three (o1 o2 o3 : OutVal) : List Call :=
  [.newFsm 0 "f", .addState 0 "A", .addState 0 "B", .addState 0 "C",
   .declOutput 0 ⟨10, 2, .null⟩, .setStart 0 0,
   .next 3 0 (some 1) (some g1), .next 3 0 (some 2) (some g2), .next 3 0 (some 0) none,
   .next 3 1 (some 2) none, .next 3 2 (some 0) (some g1),
   .stateOutput 0 ⟨10, 2, o1⟩, .stateOutput 1 ⟨10, 2, o2⟩, .stateOutput 2 ⟨10, 2, o3⟩]

def W3 : World := worldOf (three (lit 1) (lit 2) (lit 3))

theorem W3_reach : Reach W3 := worldOf_reach (by decide +kernel)
theorem W3_states : allStates W3 0 20 = some [0, 1, 2] := by decide +kernel

def okOf (x : Res Realized) : Realized :=
  match x with
  | .ok r => r
  | _ => ⟨0, ⟨[], 0, [], fun _ => "", fun _ => []⟩, .brk, .nil, .nil⟩

theorem okOf_eq {x : Res Realized} (h : x.isOk = true) : x = .ok (okOf x) := by
  cases x <;> simp_all [Res.isOk, okOf]

def r3 : Realized := okOf (realize W3 0 (cfg true) [0, 1, 2])
theorem r3_ok : realize W3 0 (cfg true) [0, 1, 2] = .ok r3 := okOf_eq (by decide +kernel)

def storeOf (l : List (Nat × Nat)) : Store := fun v => (l.lookup v).getD 0

/-- The hypotheses of `moore_trace_partial` are met by a three-state machine. -/
theorem fresh3 (m : Bool) : Fresh W3 0 (cfg m) [0, 1, 2] := by
  refine ⟨by cases m <;> decide, by cases m <;> decide, ?_, ?_⟩
  · cases m <;> decide +kernel
  · cases m <;> decide +kernel
theorem names3 : NamesDistinct W3 0 [0, 1, 2] := by unfold NamesDistinct; decide +kernel
theorem one3 : OneDefault W3 [0, 1, 2] := by unfold OneDefault; decide +kernel

theorem outs3 : OutsOk r3 [0, 1, 2] := by
  have h : ∀ s ∈ [0, 1, 2], r3.plan.outs s = [⟨10, 2, lit (s + 1)⟩] := by
    intro s hs
    simp only [List.mem_cons, List.not_mem_nil, or_false] at hs
    rcases hs with rfl | rfl | rfl <;> rfl
  refine ⟨?_, ?_, ?_⟩
  · intro s hs; rw [h s hs]; simp
  · intro s hs o ho e he o' ho'
    rw [h s hs, List.mem_singleton] at ho
    subst ho
    cases he
    rfl
  · intro s hs; rw [h s hs]; exact ⟨_, List.mem_singleton.2 rfl, _, rfl⟩

example (inp : Nat → Store) (q0 : Nat) (h0 : inp 0 1 = 1) (k : Nat) :
    hwRun (fun _ st => st) (cfg true) r3 inp q0 (1 + k) =
      enc r3.plan (specRun W3 (cfg true) r3.start (fun i => inp (1 + i)) r3.start k) := by
  have := (moore_trace_partial r3_ok rfl names3 (fresh3 true) one3 (.inl rfl) outs3
    (fun _ st => st) inp q0 0 (by simp [resetActive, cfg, h0]) k).2.2.1
  simpa using this

/-- A run: reset, then input 2 set: state `B`; then `C`. -/
example : (List.range 4).map (hwRun (fun _ st => st) (cfg true) r3
    (fun k => if k = 0 then storeOf [(1, 1)] else storeOf [(2, 1)]) 3) = [3, 0, 1, 2] := by
  decide +kernel

/-! ### Moore: a state that keeps its outputs -/

def Whold : World := worldOf (three (lit 1) .self (lit 3))
def rhold : Realized := okOf (realize Whold 0 (cfg true) [0, 1, 2])

/-- **C34 is false of the code for a state that holds its outputs** (value = the output itself) when
the number of states is not a power of two: the state has no case of its own, so the `default` case
applies, which assigns the start state's outputs. -/
theorem moore_counterexample_hold : Reach Whold ∧ allStates Whold 0 20 = some [0, 1, 2] ∧
    realize Whold 0 (cfg true) [0, 1, 2] = .ok rhold ∧
    -- in state B (index 1) with the output at 2, the block changes it to 1
    (∃ o ∈ rhold.plan.outs 1, o.v = 10 ∧ o.w = 2 ∧
      shown (storeOf [(100, enc rhold.plan 1), (10, 2)]) o = 2) ∧
    (rhold.out.exec (fun _ st => st)
      ⟨storeOf [(100, enc rhold.plan 1), (10, 2)], [], .run⟩).val 10 % 4 = 1 := by
  refine ⟨worldOf_reach (by decide +kernel), by decide +kernel, okOf_eq (by decide +kernel), ?_, ?_⟩
  · exact ⟨⟨10, 2, .self⟩, by
      have : rhold.plan.outs 1 = [⟨10, 2, .self⟩] := rfl
      rw [this]; simp, rfl, rfl, by decide +kernel⟩
  · decide +kernel

/-! ### Reset polarity of a non-port signal -/

/-- **C34 is false of the code for an active-low reset that is not a port**: `set_reset_high(false)`
is ignored, so the register is reset while the signal is high. -/
theorem reset_counterexample :
    let c : Cfg := ⟨100, 101, 1, 1, false, none, false, true⟩
    ∃ r, realize W3 0 c [0, 1, 2] = .ok r ∧ ¬ resetActive c (storeOf [(1, 1), (2, 1)]) ∧
      hwStep (fun _ st => st) c r (storeOf [(1, 1), (2, 1)]) (enc r.plan 1) = enc r.plan r.start ∧
      specNext W3 (storeOf [(1, 1), (2, 1)]) 1 ≠ r.start ∧
      enc r.plan (specNext W3 (storeOf [(1, 1), (2, 1)]) 1) ≠ enc r.plan r.start := by
  refine ⟨okOf (realize W3 0 ⟨100, 101, 1, 1, false, none, false, true⟩ [0, 1, 2]),
    okOf_eq (by decide +kernel), ?_, ?_, ?_, ?_⟩ <;> decide +kernel

/-! ### Mealy -/

/-- The output function calls of the machine, as a meaning for call statements. -/
def callsOf (W : World) (top : FId) (p : Plan) (t : Nat) (st : St) : St :=
  match callArgs (p.outs t) (W.F top).decl with
  | .ok args => callSem args st
  | _ => st

theorem callsOf_mean (W : World) (top : FId) (p : Plan) : CallsMean W top p (callsOf W top p) := by
  intro t args h
  funext st
  simp [callsOf, h]

def m3 : Realized := okOf (realize W3 0 (cfg false) [0, 1, 2])
theorem m3_ok : realize W3 0 (cfg false) [0, 1, 2] = .ok m3 := okOf_eq (by decide +kernel)

/-- `mealy_outputs_partial` applies: from `A` with the first guard true, output of `B`. -/
example : ∃ o ∈ m3.plan.outs 1, o.v = 10 ∧
    (m3.comb.exec (callsOf W3 0 m3.plan)
      ⟨withReg 100 (enc m3.plan 0) (storeOf [(2, 1)]), [], .run⟩).val 10 % 2 ^ 2 =
      shown (storeOf [(2, 1)]) ⟨10, 2, o.x⟩ := by
  have houts : ∀ t ∈ [0, 1, 2], m3.plan.outs t = [⟨10, 2, lit (t + 1)⟩] := by
    intro t ht
    simp only [List.mem_cons, List.not_mem_nil, or_false] at ht
    rcases ht with rfl | rfl | rfl <;> rfl
  have := (mealy_outputs_partial m3_ok rfl names3 (fresh3 false) one3 (by decide +kernel)
    (by
      intro t ht o ho e he
      rw [houts t ht, List.mem_singleton] at ho
      subst ho
      cases he
      exact ⟨rfl, rfl⟩)
    (callsOf_mean W3 0 m3.plan) (s := 0) (by simp) (storeOf [(2, 1)])
    (pre := []) (post := [(.var 3 1, 2)]) (g := .var 2 1) (t := 1) rfl
    (by simp) (by decide) (.inr (by simp))).2.2 ⟨10, 2, .null⟩ (by
      have : (W3.F 0).decl = [⟨10, 2, .null⟩] := rfl
      rw [this]; simp)
  exact this

/-- **C35 is false of the code for a state whose only transition is unconditional**: in `B`, the
machine moves to `C` (output 3), but no output is assigned; the output keeps its old value 0. -/
theorem mealy_counterexample_single :
    specNext W3 (storeOf []) 1 = 2 ∧
    (∃ o ∈ m3.plan.outs 2, o.v = 10 ∧ o.w = 2 ∧ shown (storeOf []) o = 3) ∧
    (m3.comb.exec (callsOf W3 0 m3.plan)
      ⟨withReg 100 (enc m3.plan 1) (storeOf []), [], .run⟩).val 10 % 4 = 0 := by
  refine ⟨by decide +kernel, ⟨⟨10, 2, lit 3⟩, ?_, rfl, rfl, by decide +kernel⟩, by decide +kernel⟩
  have : m3.plan.outs 2 = [⟨10, 2, lit 3⟩] := rfl
  rw [this]; simp

/-- **C35 is false of the code for the last guard of a state with an unconditional transition**: in
`A` with only the second guard true the machine moves to `C` (output 3) but shows the output of the
unconditional target `A` (1), because that call is put into the wrong branch. -/
theorem mealy_counterexample_last :
    specNext W3 (storeOf [(3, 1)]) 0 = 2 ∧
    (∃ o ∈ m3.plan.outs 2, o.v = 10 ∧ o.w = 2 ∧ shown (storeOf [(3, 1)]) o = 3) ∧
    (m3.comb.exec (callsOf W3 0 m3.plan)
      ⟨withReg 100 (enc m3.plan 0) (storeOf [(3, 1)]), [], .run⟩).val 10 % 4 = 1 := by
  refine ⟨by decide +kernel, ⟨⟨10, 2, lit 3⟩, ?_, rfl, rfl, by decide +kernel⟩, by decide +kernel⟩
  have : m3.plan.outs 2 = [⟨10, 2, lit 3⟩] := rfl
  rw [this]; simp

/-- **C35 is false of the code when the unconditional transition is taken as the default**: in `A`
with no guard true the machine moves to `A` (output 1) but the output keeps its old value 0. -/
theorem mealy_counterexample_default :
    taken (storeOf []) (W3.S 0).trans = some 0 ∧
    (∃ o ∈ m3.plan.outs 0, o.v = 10 ∧ o.w = 2 ∧ shown (storeOf []) o = 1) ∧
    (m3.comb.exec (callsOf W3 0 m3.plan)
      ⟨withReg 100 (enc m3.plan 0) (storeOf []), [], .run⟩).val 10 % 4 = 0 := by
  refine ⟨by decide +kernel, ⟨⟨10, 2, lit 1⟩, ?_, rfl, rfl, by decide +kernel⟩, by decide +kernel⟩
  have : m3.plan.outs 0 = [⟨10, 2, lit 1⟩] := rfl
  rw [this]; simp

/-! ### Encodings of nested machines -/

/-- Top FSM `a` with state `b_c`, child FSM `a_b` with state `c`. -/
def Wnest : World := worldOf
  [.newFsm 0 "a", .newFsm 0 "a_b", .addChild 0 1, .addState 0 "b_c", .addState 1 "c",
   .setStart 0 0, .next 3 0 (some 1) (some g1), .next 3 1 (some 0) (some g2)]
def rnest : Realized := okOf (realize Wnest 0 (cfg true) [0, 1])

/-- **C36 is false of the code for nested machines**: two different states of one machine get the
same code because their enum names coincide (`a` + `_` + `b_c` and `a_b` + `_` + `c`). -/
theorem encodings_counterexample : Reach Wnest ∧ allStates Wnest 0 20 = some [0, 1] ∧
    realize Wnest 0 (cfg true) [0, 1] = .ok rnest ∧
    enc rnest.plan 0 = enc rnest.plan 1 := by
  exact ⟨worldOf_reach (by decide +kernel), by decide +kernel, okOf_eq (by decide +kernel),
    by decide +kernel⟩

/-- A nested machine whose names do not coincide. -/
def Wnest2 : World := worldOf
  [.newFsm 0 "a", .newFsm 0 "k", .addChild 0 1, .addState 0 "s", .addState 1 "s",
   .setStart 0 0, .next 3 0 (some 1) (some g1), .next 3 1 (some 0) (some g2)]
example : Reach Wnest2 ∧ allStates Wnest2 0 20 = some [0, 1] ∧ NamesDistinct Wnest2 0 [0, 1] ∧
    (realize Wnest2 0 (cfg true) [0, 1]).isOk = true :=
  ⟨worldOf_reach (by decide +kernel), by decide +kernel, by unfold NamesDistinct; decide +kernel,
    by decide +kernel⟩

/-- `encodings_flat` applies to the three-state machine. -/
example : ∀ s ∈ [0, 1, 2], ∀ t ∈ [0, 1, 2], enc r3.plan s = enc r3.plan t → s = t :=
  encodings_flat W3_reach rfl W3_states r3_ok

/-! ### Two unconditional transitions -/

def Wtwo : World := worldOf
  [.newFsm 0 "f", .addState 0 "A", .addState 0 "B", .setStart 0 0,
   .next 3 0 (some 1) none, .next 3 0 (some 0) none, .next 3 1 (some 0) none]

/-- **C37 is false of the code for unconditional transitions**: a second one is accepted, and
realizing the machine then dereferences a null pointer. -/
theorem construct_counterexample : Reach Wtwo ∧ (unconditional (Wtwo.S 0).trans).length = 2 ∧
    allStates Wtwo 0 20 = some [0, 1] ∧
    (match realize Wtwo 0 (cfg true) [0, 1] with | .ub => True | _ => False) :=
  ⟨worldOf_reach (by decide +kernel), by decide +kernel, by decide +kernel, by
    have : (match realize Wtwo 0 (cfg true) [0, 1] with | .ub => true | _ => false) = true := by
      decide +kernel
    split <;> simp_all⟩

/-- `construct_partial` on a state with three transitions. -/
example : (W3.S 0).trans.length = 3 ∧ TransOk (W3.S 0).trans :=
  ⟨by decide +kernel, construct_partial W3_reach 0 (by decide +kernel)⟩

/-- Guards that `next` rejects: a second use of the same guard, a guard after the unconditional
transition, a 2-bit guard. -/
example : (next 3 W3 2 (some 0) (some g1)).isOk = false ∧ (next 3 W3 0 (some 0) (some ⟨9, .var 4 1⟩)).isOk = false ∧
    (next 3 W3 2 (some 0) (some ⟨9, .var 4 2⟩)).isOk = false ∧
    (next 3 W3 2 (some 0) (some ⟨9, .var 4 1⟩)).isOk = true := by decide +kernel

end Kratos.Fsm
