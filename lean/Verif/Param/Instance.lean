import Verif.Param.Props
import Verif.Ir.Semantics

/-!
# Parameters of emitted instances (property C50)

Models the parameter list of a module (`SystemVerilogCodeGen::generate_parameters`, src/codegen.cc:352-392), the overrides of an
instantiation (`stmt_code(ModuleInstantiationStmt*)`, src/codegen.cc:817-867), `Param::value_str` (src/expr.cc:1201-1215) and the calls that
set what they print (src/expr.cc:1175-1239, src/expr.hh:500-508), on top of the model of parameter values in `Verif.Param.Model`.

Simplified: values are integers (the text of unsigned values from 2^63 on is the subject of C06); names are numbers; overrides are not
sorted, because their order has no meaning.
-/

namespace Kratos.Inst

open Kratos.Param (Call call upd legal)
open Kratos.Ir (pattern)

/-! ### Model -/

/-- `ParamType`, src/expr.hh: `param` is the type of a parameter set from another one. -/
inductive Kind where
  | integral | raw | enum | param
  deriving DecidableEq, Repr

/-- What the text of parameters depends on: `Param.St` has values, widths, signs and `parent_param_`; `init` is `initial_value_`, `raw` is
`raw_str_value_`, `rawInit` is `initial_raw_str_value_`. -/
structure S where
  st : Param.St
  kind : Nat → Kind
  init : Nat → Option Int
  raw : Nat → Option String
  rawInit : Nat → Option String

inductive Op where
  | base (c : Call)
  | setInit (p : Nat) (v : Int)
  | setRaw (p : Nat) (s : String)
  | setRawInit (p : Nat) (s : String)

/-- src/expr.cc:1233: setting a parameter from another one changes its type, unless that one is a raw type. -/
def newKind (s : S) : Call → Nat → Kind
  | .setParent c p => if s.kind p = .raw then s.kind else upd s.kind c .param
  | _ => s.kind

/-- One call. -/
def op (E : Nat → Param.WExpr) (n : Nat) (s : S) : Op → S × Param.Out
  | .base c => ({ s with st := (call E n s.st c).1, kind := newKind s c }, (call E n s.st c).2)
  | .setInit p v => ({ s with init := upd s.init p (some v) }, .ok)
  | .setRaw p t => ({ s with raw := upd s.raw p (some t) }, .ok)
  | .setRawInit p t => ({ s with rawInit := upd s.rawInit p (some t) }, .ok)

/-- Which parameters a generator has, their names and generators. -/
structure Design where
  params : Nat → List Nat
  name : Nat → Nat
  owner : Nat → Nat

/-- Text of a value: a based literal, the name of a parameter, a type, or a decimal number. -/
inductive Text where
  | lit (neg : Bool) (w mag : Nat)
  | name (n : Nat)
  | raw (s : String)
  | dec (i : Int)
  deriving DecidableEq, Repr

/-- `Const::to_string`, src/expr.cc:1413-1417. -/
def constText (w : Nat) (signed : Bool) (v : Int) : Text :=
  if signed ∧ v < 0 then .lit true w (-v).toNat else .lit false w v.toNat

/-- `Param::value_str`, src/expr.cc:1201-1215.  The name of a parameter as a variable is the decimal number its constructor was called with
(src/expr.cc:936, 1149-1173). -/
def valueText (D : Design) (s : S) (p : Nat) : Text :=
  match s.kind p with
  | .integral => constText (s.st.pwidth p) (s.st.psgn p) (s.st.val p)
  | k => match s.st.parent p with
    | some q => .name (D.name q)
    | none => match k with
      | .raw => match s.raw p with
        | some t => .raw t
        | none => match s.rawInit p with
          | some t => .raw t
          | none => .dec 1
      | .enum => .dec 0
      | _ => .dec 1

/-- No override is printed, src/codegen.cc:823-833. -/
def skipped (s : S) (p : Nat) : Bool :=
  (s.st.parent p = none ∧ s.init p = some (s.st.val p)) ∨
  (s.kind p = .raw ∧ (((s.raw p).isSome ∧ (s.rawInit p).isSome ∧ s.raw p = s.rawInit p) ∨ (s.raw p = none ∧ (s.rawInit p).isSome)))

/-- src/codegen.cc:851-860: the parameter is set from one of a generator that is not the parent of the instance. -/
def foreign (D : Design) (s : S) (pg p : Nat) : Bool :=
  match s.st.parent p with
  | some q => D.owner q != pg
  | none => false

/-- The overrides in an instance in generator `pg`, src/codegen.cc:837-867. -/
def overrides (D : Design) (s : S) (pg : Nat) : List Nat → Res (List (Nat × Text))
  | [] => .ok []
  | p :: l => if skipped s p then overrides D s pg l
      else if foreign D s pg p then .throw .var
      else (overrides D s pg l).map ((D.name p, valueText D s p) :: ·)

/-- The default of a parameter in the module, src/codegen.cc:358-379; `hv`: `has_value_`. -/
def defaultText (D : Design) (hv : Nat → Bool) (s : S) (p : Nat) : Res (Option Text) :=
  match s.init p with
  | some v => if legal v (s.st.pwidth p) (s.st.psgn p) then .ok (some (constText (s.st.pwidth p) (s.st.psgn p) v)) else .throw .user
  | none => match s.kind p with
    | .raw => .ok (match s.rawInit p with
      | some t => some (.raw t)
      | none => (s.raw p).map .raw)
    | .integral => .ok (if hv p then some (valueText D s p) else none)
    | _ => .ok none

/-- The parameter list of a module. -/
def header (D : Design) (hv : Nat → Bool) (s : S) : List Nat → Res (List (Nat × Option Text))
  | [] => .ok []
  | p :: l => (defaultText D hv s p).bind fun t => (header D hv s l).map ((D.name p, t) :: ·)

/-! ### Specification: elaboration (IEEE 1800-2017 §6.20, §23.10) -/

/-- Values of parameters: numbers and types. -/
inductive Val where
  | num (i : Int)
  | type (t : String)
  deriving DecidableEq, Repr

def get {β : Type} (n : Nat) : List (Nat × β) → Option β
  | [] => none
  | (k, b) :: l => if k = n then some b else get n l

/-- Value of a text where names stand for `env`.  A based literal without `s` is unsigned, and so is its negation. -/
def evalText (env : Nat → Option Val) : Text → Option Val
  | .lit neg w m => some (.num ((if neg then -(m : Int) else m) % (2 : Int) ^ w))
  | .name n => env n
  | .raw t => some (.type t)
  | .dec i => some (.num i)

/-- The values of the parameters of an instance: the override if there is one, the default otherwise. -/
def elabInst (hdr : List (Nat × Option Text)) (ovs : List (Nat × Text)) (env : Nat → Option Val) (n : Nat) : Option Val :=
  match get n hdr with
  | none => none
  | some d => match get n ovs with
    | some t => evalText env t
    | none => d.bind (evalText fun _ => none)

/-- The type a raw parameter stands for: its own, or that of the parameter it was set from. -/
inductive RawVal (s : S) : Nat → String → Prop where
  | own {p t} : s.st.parent p = none → s.raw p = some t → RawVal s p t
  | init {p t} : s.st.parent p = none → s.raw p = none → s.rawInit p = some t → RawVal s p t
  | tied {p q t} : s.st.parent p = some q → RawVal s q t → RawVal s p t

/-- The value parameter `p` has in its generator. -/
inductive Holds (s : S) (p : Nat) : Val → Prop where
  | num : s.kind p ≠ .raw → Holds s p (.num (s.st.val p))
  | type {t} : s.kind p = .raw → RawVal s p t → Holds s p (.type t)

/-- The values of generator `g`, as `env` has them, are those in the generator. -/
def Right (D : Design) (s : S) (g : Nat) (env : Nat → Option Val) : Prop := ∀ p ∈ D.params g, ∀ v, Holds s p v → env (D.name p) = some v

/-- Names are unique in a generator (the key of a `std::map`), and every parameter is one of its generator. -/
structure Wf (D : Design) : Prop where
  nodup : ∀ g, ((D.params g).map D.name).Nodup
  owner : ∀ p, p ∈ D.params (D.owner p)

/-- A new design: nothing is tied, values are legal. -/
structure Fresh (s : S) : Prop where
  base : Param.Fresh s.st
  legal : ∀ p, legal (s.st.val p) (s.st.pwidth p) (s.st.psgn p) = true
  kind : ∀ p, s.kind p ≠ .param

inductive Reach (E : Nat → Param.WExpr) : S → Prop where
  | fresh {s} : Fresh s → Reach E s
  | step {s o n s'} : Reach E s → op E n s o = (s', .ok) → Reach E s'

/-- Full claim (C50): an instance in a parent whose parameters have their values gives those of the child their values. -/
def InstClaim : Prop := ∀ (E : Nat → Param.WExpr) (s : S) (D : Design) (hv : Nat → Bool) (g pg : Nat) (hdr : List (Nat × Option Text))
  (ovs : List (Nat × Text)) (env : Nat → Option Val), Reach E s → Wf D → header D hv s (D.params g) = .ok hdr →
  overrides D s pg (D.params g) = .ok ovs → Right D s pg env → Right D s g (elabInst hdr ovs env)

/-- The calls for which the claim is proved: those of C12, a raw parameter set from raw ones only and others from others only, and no text
set for a parameter that is set from another. -/
def Tame (E : Nat → Param.WExpr) (s : S) : Op → Prop
  | .base c => Param.Tame E s.st c ∧ (∀ a b, c = .setParent a b → (s.kind a = .raw ↔ s.kind b = .raw))
  | .setInit _ _ => True
  | .setRaw p _ => s.st.parent p = none
  | .setRawInit _ _ => True

inductive TameReach (E : Nat → Param.WExpr) : S → Prop where
  | fresh {s} : Fresh s → TameReach E s
  | step {s o n s'} : TameReach E s → Tame E s o → op E n s o = (s', .ok) → TameReach E s'

/-- Parameters whose text is right: values are not negative, those of an enumeration type are set from another parameter, a raw parameter
that is set from another has no type of its own. -/
structure Plain (s : S) (p : Nat) : Prop where
  nonneg : 0 ≤ s.st.val p
  enum : s.kind p ≠ .enum
  raw : s.kind p = .raw → s.st.parent p ≠ none → s.raw p = none ∧ s.rawInit p = none

/-- Two parameters, of two generators printed as one module, that are declared in the same way.  Their values may differ. -/
structure SameDecl (s : S) (p q : Nat) : Prop where
  width : s.st.pwidth q = s.st.pwidth p
  sign : s.st.psgn q = s.st.psgn p
  init : s.init q = s.init p
  rawInit : s.rawInit q = s.rawInit p
  raw : s.kind q = .raw ↔ s.kind p = .raw

theorem SameDecl.refl (s : S) (p : Nat) : SameDecl s p p := ⟨rfl, rfl, rfl, rfl, Iff.rfl⟩

/-! ### Proof -/

theorem get_none {β : Type} {n : Nat} : ∀ {l : List (Nat × β)}, n ∉ l.map (·.1) → get n l = none
  | [], _ => rfl
  | (k, b) :: l, h => by
    rw [List.map_cons, List.mem_cons] at h
    rw [get, if_neg (fun e => h (.inl e.symm))]
    exact get_none fun hm => h (.inr hm)

theorem header_names {D : Design} {hv : Nat → Bool} {s : S} : ∀ {l : List Nat} {hdr : List (Nat × Option Text)}, header D hv s l = .ok hdr →
    hdr.map (·.1) = l.map D.name
  | [], _, h => by cases h; rfl
  | p :: l, hdr, h => by
    simp only [header, Res.bind_eq_ok] at h
    obtain ⟨t, ht, h⟩ := h
    cases hl : header D hv s l with
    | ok r => rw [hl] at h; cases h; simp [header_names hl]
    | throw e => rw [hl] at h; cases h
    | ub => rw [hl] at h; cases h

theorem header_get {D : Design} {hv : Nat → Bool} {s : S} : ∀ {l : List Nat} {hdr : List (Nat × Option Text)}, header D hv s l = .ok hdr →
    (l.map D.name).Nodup → ∀ p ∈ l, ∃ t, get (D.name p) hdr = some t ∧ defaultText D hv s p = .ok t
  | [], _, _, _, _, hp => by cases hp
  | q :: l, hdr, h, hn, p, hp => by
    simp only [header, Res.bind_eq_ok] at h
    obtain ⟨t, ht, h⟩ := h
    have hn' := List.nodup_cons.1 hn
    cases hl : header D hv s l with
    | ok r =>
      rw [hl] at h; cases h
      rcases List.mem_cons.1 hp with e | hp
      · subst e; exact ⟨t, by rw [get, if_pos rfl], ht⟩
      · obtain ⟨u, hu⟩ := header_get hl hn'.2 p hp
        refine ⟨u, ?_, hu.2⟩
        rw [get, if_neg fun e => hn'.1 (List.mem_map.2 ⟨p, hp, e.symm⟩)]
        exact hu.1
    | throw e => rw [hl] at h; cases h
    | ub => rw [hl] at h; cases h

theorem overrides_names {D : Design} {s : S} {pg : Nat} : ∀ {l : List Nat} {ovs : List (Nat × Text)}, overrides D s pg l = .ok ovs →
    ∀ n ∈ ovs.map (·.1), n ∈ l.map D.name
  | [], _, h, n, hn => by cases h; cases hn
  | p :: l, ovs, h, n, hn => by
    unfold overrides at h
    split at h
    · exact List.mem_cons_of_mem _ (overrides_names h n hn)
    · split at h
      · cases h
      · cases hl : overrides D s pg l with
        | ok r =>
          rw [hl] at h; cases h
          rcases List.mem_cons.1 hn with e | hn
          · rw [e]; exact List.mem_cons_self ..
          · exact List.mem_cons_of_mem _ (overrides_names hl n hn)
        | throw e => rw [hl] at h; cases h
        | ub => rw [hl] at h; cases h

theorem overrides_get {D : Design} {s : S} {pg : Nat} : ∀ {l : List Nat} {ovs : List (Nat × Text)}, overrides D s pg l = .ok ovs →
    (l.map D.name).Nodup → ∀ p ∈ l, (skipped s p = true ∧ get (D.name p) ovs = none) ∨
      (skipped s p = false ∧ foreign D s pg p = false ∧ get (D.name p) ovs = some (valueText D s p))
  | [], _, _, _, _, hp => by cases hp
  | q :: l, ovs, h, hn, p, hp => by
    have hn' := List.nodup_cons.1 hn
    unfold overrides at h
    split at h
    · rename_i hs
      rcases List.mem_cons.1 hp with e | hp
      · subst e
        exact .inl ⟨hs, get_none fun hm => hn'.1 (overrides_names h _ hm)⟩
      · exact overrides_get h hn'.2 p hp
    · rename_i hs
      split at h
      · cases h
      · rename_i hf
        cases hl : overrides D s pg l with
        | ok r =>
          rw [hl] at h; cases h
          rcases List.mem_cons.1 hp with e | hp
          · subst e
            exact .inr ⟨by simpa using hs, by simpa using hf, by rw [get, if_pos rfl]⟩
          · have e : get (D.name p) ((D.name q, valueText D s q) :: r) = get (D.name p) r := by
              rw [get, if_neg fun e => hn'.1 (List.mem_map.2 ⟨p, hp, e.symm⟩)]
            rw [e]
            exact overrides_get hl hn'.2 p hp
        | throw e => rw [hl] at h; cases h
        | ub => rw [hl] at h; cases h

/-! #### Legal values -/

def Legal (st : Param.St) : Prop := ∀ p, legal (st.val p) (st.pwidth p) (st.psgn p) = true

theorem setSize_keeps {E : Nat → Param.WExpr} {st st' : Param.St} {x i e : Nat} (h : Param.setSize E st x i e = (st', .ok)) :
    st'.val = st.val ∧ st'.pwidth = st.pwidth ∧ st'.psgn = st.psgn ∧ st'.parent = st.parent := by
  unfold Param.setSize at h
  split at h
  · cases h
  · split at h
    · cases h
    · cases h; exact ⟨rfl, rfl, rfl, rfl⟩

theorem setSizes_keeps {E : Nat → Param.WExpr} : ∀ (ts : List (Nat × Nat × Nat)) {st st' : Param.St}, Param.setSizes E st ts = (st', .ok) →
    st'.val = st.val ∧ st'.pwidth = st.pwidth ∧ st'.psgn = st.psgn ∧ st'.parent = st.parent
  | [], _, _, h => by cases h; exact ⟨rfl, rfl, rfl, rfl⟩
  | (x, i, e) :: ts, st, st', h => by
    unfold Param.setSizes at h
    split at h
    · rename_i st1 h1
      obtain ⟨a, b, c, d⟩ := setSize_keeps h1
      obtain ⟨a', b', c', d'⟩ := setSizes_keeps ts h
      exact ⟨a'.trans a, b'.trans b, c'.trans c, d'.trans d⟩
    · rename_i r hr
      rw [h] at hr
      exact absurd rfl (hr st')

theorem forKids_legal {f : Param.St → Nat → Param.St × Param.Out} (hf : ∀ st st' c, f st c = (st', .ok) → Legal st → Legal st' ∧ st'.parent = st.parent) :
    ∀ (l : List Nat) {st st' : Param.St}, Param.forKids f st l = (st', .ok) → Legal st → Legal st' ∧ st'.parent = st.parent
  | [], _, _, h, hl => by cases h; exact ⟨hl, rfl⟩
  | c :: l, st, st', h, hl => by
    unfold Param.forKids at h
    split at h
    · rename_i st1 h1
      obtain ⟨a, b⟩ := hf _ _ _ h1 hl
      obtain ⟨a', b'⟩ := forKids_legal hf l h a
      exact ⟨a', b'.trans b⟩
    · rename_i r hr
      rw [h] at hr
      exact absurd rfl (hr st')

theorem setValue_legal (E : Nat → Param.WExpr) : ∀ (n : Nat) (st st' : Param.St) (p : Nat) (v : Int), Param.setValue E n st p v = (st', .ok) →
    Legal st → Legal st' ∧ st'.parent = st.parent
  | 0, _, _, _, _, h, _ => by cases h
  | n + 1, st, st', p, v, h, hl => by
    unfold Param.setValue at h
    split at h
    · cases h
    · split at h
      · cases h
      · rename_i hv
        simp only at h
        split at h
        · rename_i st2 h2
          obtain ⟨a, b, c, d⟩ := setSizes_keeps _ h2
          have hl2 : Legal st2 := by
            intro q
            rw [a, b, c]
            show legal (upd st.val p v q) (st.pwidth q) (st.psgn q) = true
            rcases Decidable.em (q = p) with e | e
            · subst e
              rw [Param.upd_self]
              simpa using hv
            · rw [Param.upd_ne _ _ e]
              exact hl q
          obtain ⟨x, y⟩ := forKids_legal (fun s s' c hc hs => setValue_legal E n s s' c v hc hs) _ h hl2
          exact ⟨x, y.trans d⟩
        · rename_i r hr
          rw [h] at hr
          exact absurd rfl (hr st')

/-- Parents after a call. -/
def newParent (st : Param.St) : Call → Nat → Option Nat
  | .setParent c p => upd st.parent c (some p)
  | _ => st.parent

theorem call_legal {E : Nat → Param.WExpr} {n : Nat} {st st' : Param.St} {c : Call} (h : call E n st c = (st', .ok)) (hl : Legal st) :
    Legal st' ∧ st'.parent = newParent st c := by
  cases c with
  | setValue p v => exact setValue_legal E n _ _ p v h hl
  | setParent c p =>
    have := setValue_legal E n _ _ c _ h (by exact hl)
    exact this
  | tieWidth x e =>
    unfold call Param.tieWidth at h
    simp only at h
    split at h
    · cases h
    · cases h; exact ⟨hl, rfl⟩
  | untieWidth x =>
    unfold call Param.untieWidth at h
    simp only at h
    split at h
    · cases h; exact ⟨hl, rfl⟩
    · cases h; exact ⟨hl, rfl⟩
  | tieSize x i e =>
    obtain ⟨a, b, c, d⟩ := setSize_keeps h
    exact ⟨fun q => by rw [a, b, c]; exact hl q, d⟩
  | untieSize x i =>
    unfold call Param.untieSize at h
    simp only at h
    split at h
    · cases h; exact ⟨hl, rfl⟩
    · cases h; exact ⟨hl, rfl⟩

/-- What holds after every tame history. -/
structure Inv (E : Nat → Param.WExpr) (s : S) : Prop where
  base : Param.TameReach E s.st
  legal : Legal s.st
  kind : ∀ c p, s.st.parent c = some p → (s.kind c = .raw ↔ s.kind p = .raw) ∧ (s.kind c ≠ .raw → s.kind c = .param)
  param : ∀ c, s.kind c = .param → s.st.parent c ≠ none

theorem inv_of {E : Nat → Param.WExpr} {s : S} (h : TameReach E s) : Inv E s := by
  induction h with
  | fresh hf =>
    refine ⟨.fresh hf.base, hf.legal, fun c p hp => ?_, fun c hc => absurd hc (hf.kind c)⟩
    rw [(hf.base.1 c).2.2.2] at hp
    cases hp
  | @step s o n s' _ ht ho ih =>
    cases o with
    | setInit p v => cases ho; exact ⟨ih.base, ih.legal, ih.kind, ih.param⟩
    | setRaw p v => cases ho; exact ⟨ih.base, ih.legal, ih.kind, ih.param⟩
    | setRawInit p v => cases ho; exact ⟨ih.base, ih.legal, ih.kind, ih.param⟩
    | base c =>
      obtain ⟨htc, hk⟩ := ht
      unfold op at ho
      simp only [Prod.mk.injEq] at ho
      obtain ⟨rfl, ho2⟩ := ho
      have hc : call E n s.st c = ((call E n s.st c).1, .ok) := by rw [← ho2]
      obtain ⟨hl, hp⟩ := call_legal hc ih.legal
      refine ⟨.step ih.base htc hc, hl, ?_, ?_⟩
      · intro a b hab
        simp only at hab ⊢
        rw [hp] at hab
        cases c with
        | setParent x y =>
          have hxy := hk x y rfl
          simp only [newParent] at hab
          simp only [newKind]
          obtain ⟨hx, hne⟩ := htc
          rcases Decidable.em (a = x) with e | e
          · subst e
            rw [Param.upd_self] at hab
            cases hab
            split
            · rename_i hr
              exact ⟨hxy, fun hn => absurd (hxy.2 hr) hn⟩
            · rename_i hr
              rw [Param.upd_self, Param.upd_ne _ _ (Ne.symm hne)]
              exact ⟨⟨fun h => (by cases h), fun h => absurd h hr⟩, fun _ => rfl⟩
          · rw [Param.upd_ne _ _ e] at hab
            have := ih.kind a b hab
            split
            · exact this
            · rename_i hr
              rw [Param.upd_ne _ _ e]
              rcases Decidable.em (b = x) with e' | e'
              · subst e'
                rw [Param.upd_self]
                have hb : s.kind b ≠ .raw := fun h => hr (hxy.1 h)
                exact ⟨⟨fun h => absurd (this.1.1 h) hb, fun h => (by cases h)⟩, this.2⟩
              · rw [Param.upd_ne _ _ e']
                exact this
        | setValue p v => exact ih.kind a b hab
        | tieWidth x e => exact ih.kind a b hab
        | untieWidth x => exact ih.kind a b hab
        | tieSize x i e => exact ih.kind a b hab
        | untieSize x i => exact ih.kind a b hab
      · intro a ha
        simp only at ha ⊢
        rw [hp]
        cases c with
        | setParent x y =>
          simp only [newParent]
          simp only [newKind] at ha
          rcases Decidable.em (a = x) with e | e
          · subst e; rw [Param.upd_self]; exact nofun
          · rw [Param.upd_ne _ _ e]
            split at ha
            · exact ih.param a ha
            · rw [Param.upd_ne _ _ e] at ha
              exact ih.param a ha
        | setValue p v => exact ih.param a ha
        | tieWidth x e => exact ih.param a ha
        | untieWidth x => exact ih.param a ha
        | tieSize x i e => exact ih.param a ha
        | untieSize x i => exact ih.param a ha

theorem emod_pow {v : Int} {w : Nat} {sg : Bool} (h0 : 0 ≤ v) (hl : legal v w sg = true) : v % (2 : Int) ^ w = v := by
  apply Int.emod_eq_of_lt h0
  unfold legal at hl
  have e : ((2 ^ w : Nat) : Int) = (2 : Int) ^ w := by rw [Int.natCast_pow]; rfl
  split at hl
  · simp only [Bool.and_eq_true, decide_eq_true_eq] at hl
    have h1 : (2 ^ (w - 1) : Nat) ≤ 2 ^ w := Nat.pow_le_pow_right (by decide) (by omega)
    rw [← e]
    omega
  · simp only [Bool.and_eq_true, decide_eq_true_eq] at hl
    rw [← e]
    exact hl.2

theorem const_eval {env : Nat → Option Val} {v : Int} {w : Nat} {sg : Bool} (h0 : 0 ≤ v) (hl : legal v w sg = true) :
    evalText env (constText w sg v) = some (.num v) := by
  unfold constText
  rw [if_neg (by omega)]
  simp only [evalText]
  rw [if_neg Bool.false_ne_true, Int.toNat_of_nonneg h0, emod_pow h0 hl]

theorem raw_unique {s : S} {p : Nat} {t t' : String} (h : RawVal s p t) (h' : RawVal s p t') : t = t' := by
  induction h with
  | own hp hr =>
    cases h' with
    | own _ h2 => rw [hr] at h2; cases h2; rfl
    | init _ h2 _ => rw [hr] at h2; cases h2
    | tied h2 _ => rw [hp] at h2; cases h2
  | init hp hr hi =>
    cases h' with
    | own _ h2 => rw [hr] at h2; cases h2
    | init _ _ h2 => rw [hi] at h2; cases h2; rfl
    | tied h2 _ => rw [hp] at h2; cases h2
  | tied hp _ ih =>
    cases h' with
    | own h2 _ => rw [hp] at h2; cases h2
    | init h2 _ _ => rw [hp] at h2; cases h2
    | tied h2 h3 => rw [hp] at h2; cases h2; exact ih h3

/-- What a printed override evaluates to. -/
theorem value_eval {E : Nat → Param.WExpr} {s : S} {D : Design} {pg p : Nat} {env : Nat → Option Val} (hi : Inv E s) (hw : Wf D) (hpl : Plain s p)
    (hf : foreign D s pg p = false) (henv : Right D s pg env) {v : Val} (hv : Holds s p v) : evalText env (valueText D s p) = some v := by
  have tied : ∀ q, s.st.parent p = some q → s.kind p ≠ .integral → evalText env (.name (D.name q)) = some v := by
    intro q hq hk
    have ho : D.owner q = pg := by
      unfold foreign at hf
      rw [hq] at hf
      simpa using hf
    have hqm : q ∈ D.params pg := ho ▸ hw.owner q
    apply henv q hqm
    have hkk := hi.kind p q hq
    cases hv with
    | num hn =>
      have hval := (Param.params_partial _ hi.base).derived p q hq
      rw [hval]
      exact .num fun h => hn (hkk.1.2 h)
    | type hr ht =>
      refine .type (hkk.1.1 hr) ?_
      cases ht with
      | own h _ => rw [hq] at h; cases h
      | init h _ _ => rw [hq] at h; cases h
      | tied h h' => rw [hq] at h; cases h; exact h'
  unfold valueText
  cases hk : s.kind p with
  | integral =>
    cases hv with
    | num _ => exact const_eval hpl.nonneg (hi.legal p)
    | type h _ => rw [hk] at h; cases h
  | enum => exact absurd hk hpl.enum
  | param =>
    cases hq : s.st.parent p with
    | some q => exact tied q hq (by rw [hk]; exact nofun)
    | none => exact absurd hq (hi.param p hk)
  | raw =>
    cases hq : s.st.parent p with
    | some q => exact tied q hq (by rw [hk]; exact nofun)
    | none =>
      cases hv with
      | num h => exact absurd hk h
      | type _ ht =>
        simp only
        cases ht with
        | own _ h => rw [h]; rfl
        | init _ h h' => rw [h, h']; rfl
        | tied h _ => rw [hq] at h; cases h

/-- What the default evaluates to when no override is printed, in the module printed from a generator with the parameter `q` instead. -/
theorem default_eval {E : Nat → Param.WExpr} {s : S} {D : Design} {hvl : Nat → Bool} {p q : Nat} {d : Option Text} (hi : Inv E s) (hpl : Plain s p)
    (hs : skipped s p = true) (hq : SameDecl s p q) (hd : defaultText D hvl s q = .ok d) (hnum : s.kind p = .raw → s.init p = none) {v : Val} (hv : Holds s p v) :
    d.bind (evalText fun _ => none) = some v := by
  unfold skipped at hs
  rw [decide_eq_true_eq] at hs
  unfold defaultText at hd
  rw [hq.width, hq.sign, hq.init, hq.rawInit] at hd
  rcases hs with ⟨hp, hin⟩ | ⟨hk, hs⟩
  · rw [hin] at hd
    simp only at hd
    rw [if_pos (hi.legal p)] at hd
    cases hd
    cases hv with
    | num _ => exact const_eval hpl.nonneg (hi.legal p)
    | type h _ => rw [hnum h] at hin; cases hin
  · rw [hnum hk] at hd
    simp only [hq.raw.2 hk] at hd
    cases hv with
    | num h => exact absurd hk h
    | type _ ht =>
      cases ht with
      | own hp hr =>
        rcases hs with ⟨_, _, he⟩ | ⟨h, _⟩
        · rw [hr] at he
          rw [← he] at hd
          cases hd; rfl
        · rw [hr] at h; cases h
      | init hp hr hin =>
        rw [hin] at hd
        cases hd; rfl
      | tied hp _ =>
        have h2 := hpl.raw hk (by rw [hp]; exact nofun)
        rcases hs with ⟨h, _⟩ | ⟨_, h⟩
        · rw [h2.1] at h; cases h
        · rw [h2.2] at h; cases h

/-! ### Property theorems -/

/-- C50 after every tame history, for generators whose parameters are plain, when the module is printed once, from any generator `g'` with the
same declarations.  Missing: the cases below, for which it is false. -/
theorem shared_partial (E : Nat → Param.WExpr) (s : S) (D : Design) (hv : Nat → Bool) (g g' pg : Nat) (hdr : List (Nat × Option Text))
    (ovs : List (Nat × Text)) (env : Nat → Option Val) (hr : TameReach E s) (hw : Wf D) (hh : header D hv s (D.params g') = .ok hdr)
    (hg : ∀ p ∈ D.params g, ∃ q ∈ D.params g', D.name q = D.name p ∧ SameDecl s p q)
    (ho : overrides D s pg (D.params g) = .ok ovs) (hpl : ∀ p ∈ D.params g, Plain s p ∧ (s.kind p = .raw → s.init p = none))
    (henv : Right D s pg env) : Right D s g (elabInst hdr ovs env) := by
  intro p hp v hpv
  have hi := inv_of hr
  obtain ⟨q, hqm, hqn, hq⟩ := hg p hp
  obtain ⟨d, hd, hdt⟩ := header_get hh (hw.nodup g') q hqm
  rw [hqn] at hd
  unfold elabInst
  rw [hd]
  rcases overrides_get ho (hw.nodup g) p hp with ⟨hs, hn⟩ | ⟨hs, hf, hn⟩
  · rw [hn]
    exact default_eval hi (hpl p hp).1 hs hq hdt (hpl p hp).2 hpv
  · rw [hn]
    exact value_eval hi hw (hpl p hp).1 hf henv hpv

/-- The same for the module printed from the generator itself. -/
theorem instance_partial (E : Nat → Param.WExpr) (s : S) (D : Design) (hv : Nat → Bool) (g pg : Nat) (hdr : List (Nat × Option Text))
    (ovs : List (Nat × Text)) (env : Nat → Option Val) (hr : TameReach E s) (hw : Wf D) (hh : header D hv s (D.params g) = .ok hdr)
    (ho : overrides D s pg (D.params g) = .ok ovs) (hpl : ∀ p ∈ D.params g, Plain s p ∧ (s.kind p = .raw → s.init p = none))
    (henv : Right D s pg env) : Right D s g (elabInst hdr ovs env) :=
  shared_partial E s D hv g g pg hdr ovs env hr hw hh (fun p hp => ⟨p, hp, rfl, .refl s p⟩) ho hpl henv

/-- Elaboration along a path of instances, innermost first; the outermost generator has its defaults. -/
def elabPath (D : Design) (hv : Nat → Bool) (s : S) : List Nat → Res (Nat → Option Val)
  | [] => .ok fun _ => none
  | [g] => (header D hv s (D.params g)).map fun hdr => elabInst hdr [] fun _ => none
  | g :: pg :: l => (elabPath D hv s (pg :: l)).bind fun env => (header D hv s (D.params g)).bind fun hdr =>
      (overrides D s pg (D.params g)).map fun ovs => elabInst hdr ovs env

/-- A parameter of the top whose default is its value. -/
def TopOk (hv : Nat → Bool) (s : S) (p : Nat) : Prop :=
  s.st.parent p = none ∧ ((s.kind p ≠ .raw ∧ s.init p = some (s.st.val p)) ∨ (s.kind p = .integral ∧ s.init p = none ∧ hv p = true) ∨
    (s.kind p = .raw ∧ s.init p = none ∧ ((s.raw p).isSome → s.rawInit p = none ∨ s.raw p = s.rawInit p)))

/-- C50 through the whole hierarchy: at every depth, in every instance, every parameter has its value. -/
theorem path_partial (E : Nat → Param.WExpr) (s : S) (D : Design) (hv : Nat → Bool) (hr : TameReach E s) (hw : Wf D)
    (hpl : ∀ p, Plain s p ∧ (s.kind p = .raw → s.init p = none)) : ∀ (l : List Nat) (top : Nat) (env : Nat → Option Val),
    l.getLast? = some top → (∀ p ∈ D.params top, TopOk hv s p) → elabPath D hv s l = .ok env → ∃ g, l.head? = some g ∧ Right D s g env
  | [], _, _, h, _, _ => by cases h
  | [g], top, env, ht, htop, h => by
    cases ht
    refine ⟨g, rfl, ?_⟩
    unfold elabPath at h
    cases hh : header D hv s (D.params g) with
    | throw e => rw [hh] at h; cases h
    | ub => rw [hh] at h; cases h
    | ok hdr =>
      rw [hh] at h
      cases h
      intro p hp v hpv
      obtain ⟨d, hd, hdt⟩ := header_get hh (hw.nodup g) p hp
      simp only [elabInst, hd, get]
      obtain ⟨hpar, hc⟩ := htop p hp
      have hi := inv_of hr
      have hpp := hpl p
      unfold defaultText at hdt
      rcases hc with ⟨hk, hc⟩ | ⟨hk, hin, hval⟩ | ⟨hk, hin, hc⟩
      · rw [hc] at hdt
        simp only at hdt
        rw [if_pos (hi.legal p)] at hdt
        cases hdt
        cases hpv with
        | num _ => exact const_eval hpp.1.nonneg (hi.legal p)
        | type h _ => exact absurd h hk
      · rw [hin] at hdt
        simp only [hk, hval, if_true] at hdt
        cases hdt
        cases hpv with
        | num _ =>
          rw [Option.bind_some, valueText, hk]
          exact const_eval hpp.1.nonneg (hi.legal p)
        | type h _ => rw [hk] at h; cases h
      · rw [hin] at hdt
        simp only [hk] at hdt
        cases hpv with
        | num h => exact absurd hk h
        | type _ ht =>
          cases ht with
          | own _ hraw =>
            rcases hc (by rw [hraw]; rfl) with h | h
            · rw [h, hraw] at hdt
              cases hdt; rfl
            · rw [hraw] at h
              rw [← h] at hdt
              cases hdt; rfl
          | init _ hraw hri => rw [hri] at hdt; cases hdt; rfl
          | tied h _ => rw [hpar] at h; cases h
  | g :: pg :: l, top, env, ht, htop, h => by
    refine ⟨g, rfl, ?_⟩
    simp only [elabPath, Res.bind_eq_ok] at h
    obtain ⟨env', he, hdr, hh, h⟩ := h
    cases ho : overrides D s pg (D.params g) with
    | throw e => rw [ho] at h; cases h
    | ub => rw [ho] at h; cases h
    | ok ovs =>
      rw [ho] at h
      cases h
      obtain ⟨g', hg', hright⟩ := path_partial E s D hv hr hw hpl (pg :: l) top env' (by simpa using ht) htop he
      cases hg'
      exact instance_partial E s D hv g pg hdr ovs env' hr hw hh ho (fun p _ => hpl p) hright

/-- The value of a negative parameter is off by a power of two, because the emitted literal is unsigned. -/
theorem negative_wraps {env : Nat → Option Val} {v : Int} {w : Nat} (h0 : v < 0) (hl : legal v w true = true) :
    evalText env (constText w true v) = some (.num (v + (2 : Int) ^ w)) := by
  unfold constText
  rw [if_pos ⟨rfl, h0⟩]
  simp only [evalText, if_true]
  congr 2
  have e : ((2 ^ w : Nat) : Int) = (2 : Int) ^ w := by rw [Int.natCast_pow]; rfl
  unfold legal at hl
  simp only [if_true, Bool.and_eq_true, decide_eq_true_eq] at hl
  have h1 : (2 ^ (w - 1) : Nat) ≤ 2 ^ w := Nat.pow_le_pow_right (by decide) (by omega)
  rw [show -(((-v).toNat : Nat) : Int) = v by omega, ← e]
  rw [← Int.add_emod_right]
  apply Int.emod_eq_of_lt <;> omega

/-! ### Counterexamples and examples -/

/-- Every generator has one parameter, with the same number. -/
def D0 : Design where
  params g := [g]
  name p := p
  owner p := p

theorem D0_wf : Wf D0 := ⟨fun g => by simp [D0], fun p => by simp [D0]⟩

def s0 : S where
  st := { Param.st0 with psgn := fun p => p == 3 }
  kind p := if p = 2 then .enum else if p = 4 ∨ p = 5 then .raw else .integral
  init _ := none
  raw _ := none
  rawInit _ := none

theorem s0_fresh : Fresh s0 := by
  refine ⟨⟨fun _ => ⟨rfl, rfl, rfl, rfl⟩, fun _ => ⟨rfl, fun _ => rfl⟩⟩, fun p => ?_, fun p => ?_⟩
  · show legal 1 32 (p == 3) = true
    cases (p == 3) <;> decide
  · show (if p = 2 then Kind.enum else if p = 4 ∨ p = 5 then .raw else .integral) ≠ .param
    split
    · exact nofun
    · split <;> exact nofun

def run (s : S) : List Op → S × Param.Out
  | [] => (s, .ok)
  | o :: l => match op Param.E0 5 s o with
    | (s', .ok) => run s' l
    | r => r

theorem run_reach : ∀ (l : List Op) (s s' : S), Reach Param.E0 s → run s l = (s', .ok) → Reach Param.E0 s'
  | [], _, _, h, e => by cases e; exact h
  | o :: l, s, s', h, e => by
    unfold run at e
    split at e
    · rename_i s1 h1
      exact run_reach l s1 s' (.step h h1) e
    · rename_i r hr
      rw [e] at hr
      exact absurd rfl (hr s')

/-- A claim about one instance: after the calls `l`, an instance of `g` in `pg` gives parameter `p` the value `v`, in an environment that is
right for the parent. -/
def Witness (l : List Op) (g pg p : Nat) (env : Nat → Option Val) (good bad : Val) : Prop :=
  (run s0 l).2 = .ok ∧ Right D0 (run s0 l).1 pg env ∧ p ∈ D0.params g ∧ Holds (run s0 l).1 p good ∧ good ≠ bad ∧
    ∃ hdr ovs, header D0 (fun _ => true) (run s0 l).1 (D0.params g) = .ok hdr ∧ overrides D0 (run s0 l).1 pg (D0.params g) = .ok ovs ∧
      elabInst hdr ovs env (D0.name p) = some bad

theorem Witness.not {l : List Op} {g pg p : Nat} {env : Nat → Option Val} {good bad : Val} (h : Witness l g pg p env good bad) : ¬ InstClaim := by
  obtain ⟨h1, h2, h3, h4, h5, hdr, ovs, h6, h7, h8⟩ := h
  intro hc
  have := hc Param.E0 (run s0 l).1 D0 (fun _ => true) g pg hdr ovs env (run_reach l s0 _ (.fresh s0_fresh) (by rw [← h1])) D0_wf h6 h7 h2 p h3 good h4
  rw [h8] at this
  cases this
  exact h5 rfl

/-- Set from the parent's parameter and then to a number: the override is still the name of the parent's parameter. -/
theorem tied_then_set : Witness [.base (.setValue 0 8), .base (.setParent 1 0), .base (.setValue 1 5)] 1 0 1
    (fun n => if n = 0 then some (.num 8) else none) (.num 5) (.num 8) := by
  refine ⟨rfl, ?_, by decide, .num (by decide), by decide, _, _, rfl, rfl, rfl⟩
  intro p hp v hv
  have : p = 0 := by simpa [D0] using hp
  subst this
  cases hv with
  | num _ => rfl
  | type h _ => exact absurd h (by decide)

/-- A parameter of an enumeration type is always overridden with 0. -/
theorem enum_value : Witness [.base (.setValue 2 3)] 2 0 2 (fun n => if n = 0 then some (.num 1) else none) (.num 3) (.num 0) := by
  refine ⟨rfl, ?_, by decide, .num (by decide), by decide, _, _, rfl, rfl, rfl⟩
  intro p hp v hv
  have : p = 0 := by simpa [D0] using hp
  subst this
  cases hv with
  | num _ => rfl
  | type h _ => exact absurd h (by decide)

/-- A raw parameter with a default, set from the parent's, keeps its default. -/
theorem raw_default : Witness [.setRaw 4 "T", .setRawInit 5 "logic", .base (.setParent 5 4)] 5 4 5
    (fun n => if n = 4 then some (.type "T") else none) (.type "T") (.type "logic") := by
  refine ⟨rfl, ?_, by decide, .type (by decide) (.tied (q := 4) rfl (.own rfl rfl)), by decide, _, _, rfl, rfl, rfl⟩
  intro p hp v hv
  have : p = 4 := by simpa [D0] using hp
  subst this
  cases hv with
  | num h => exact absurd rfl h
  | type _ h => rw [raw_unique h (.own rfl rfl : RawVal _ 4 "T")]; rfl

/-- C50 fails. -/
theorem not_InstClaim : ¬ InstClaim := tied_then_set.not

/-- The hypotheses are met: a child set from its parent's parameter, which is changed afterwards. -/
example : ∃ s, TameReach Param.E0 s ∧ s.st.val 1 = 9 ∧ (∀ p ∈ D0.params 1, Plain s p ∧ (s.kind p = .raw → s.init p = none)) ∧
    overrides D0 s 0 (D0.params 1) = .ok [(1, .name 0)] ∧ header D0 (fun _ => true) s (D0.params 1) = .ok [(1, some (.lit false 32 4))] := by
  refine ⟨(run s0 [.setInit 1 4, .base (.setParent 1 0), .base (.setValue 0 9)]).1,
    .step (o := .base (.setValue 0 9)) (n := 5) (.step (o := .base (.setParent 1 0)) (n := 5) (.step (o := .setInit 1 4) (n := 5) (.fresh s0_fresh) trivial rfl) ⟨⟨rfl, by decide⟩, ?_⟩ rfl) ⟨rfl, nofun⟩ rfl,
    rfl, ?_, rfl, rfl⟩
  · intro a b e
    cases e
    exact ⟨fun h => absurd h (by decide), fun h => absurd h (by decide)⟩
  · intro p hp
    have : p = 1 := by simpa [D0] using hp
    subst this
    exact ⟨⟨by decide, by decide, fun h => absurd h (by decide)⟩, fun h => absurd h (by decide)⟩

end Kratos.Inst
