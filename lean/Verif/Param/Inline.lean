import Verif.Param.Props

/-!
# C122: the shapes of variables whose instance is inlined

`set_var_params` and the part of `Generator::transfer_content` that calls it, src/generator.cc:647-691,
705-731, on the parameters, widths and sizes of C12 (Verif.Param.Model).  The calls before inlining and the
values set after it are those of C12.

Not modelled: `transfer_content` into a generator that is not the parent (src/generator.cc:724-729), which no
pass does; and `parent_param->remove_param_width_var(param)` (line 657), which takes the child's parameter
from a set of variables whose widths follow the parent's parameter (parameters and variables are numbered
apart in this model; a parameter whose own width is parametrised is not modelled).
-/

namespace Kratos.ParamInline

open Kratos.Param

/-! ## Model -/

/-- Which expression is a parameter itself (`is_param()`), and the parameter as an expression. -/
structure Names where
  par : Nat → Option Nat
  expr : Nat → Nat

section
variable (E : Nat → WExpr) (N : Names)

/-- The search for a parameter of the destination from which the parameter `e` is set,
src/generator.cc:652-655, 674-677.  `ps`: the destination's parameters. -/
def search (st : St) (ps : List Nat) (e : Nat) : Option Nat :=
  ps.find? fun P => match N.par e with
    | some c => st.parent c == some P
    | none => false

/-- The width, src/generator.cc:648-666. -/
def moveWidth (st : St) (ps : List Nat) (x : Nat) : St × Out :=
  match st.widthTie x with
  | none => (st, .ok)
  | some e =>
    match search N st ps e with
    | some P => tieWidth E st x (N.expr P)
    | none => untieWidth E st x

/-- One dimension, src/generator.cc:670-689. -/
def moveSize (st : St) (ps : List Nat) (x i : Nat) : St × Out :=
  match st.sizeTie x i with
  | none => untieSize E st x i
  | some e =>
    match search N st ps e with
    | some P => setSize E { st with sizeVars := upd st.sizeVars P ((st.sizeVars P).filter (· ≠ (x, i, e))) } x i (N.expr P)
    | none => untieSize E st x i

/-- The loop over the dimensions. -/
def moveSizes (st : St) (ps : List Nat) (x : Nat) : List Nat → St × Out
  | [] => (st, .ok)
  | i :: is =>
    match moveSize E N st ps x i with
    | (st', .ok) => moveSizes st' ps x is
    | r => r

/-- `set_var_params`, src/generator.cc:647-691; `d` is the number of dimensions. -/
def moveVar (st : St) (ps : List Nat) (d x : Nat) : St × Out :=
  match moveWidth E N st ps x with
  | (st', .ok) => moveSizes E N st' ps x (List.range d)
  | r => r

/-- A port `x`, src/generator.cc:713-722: a variable `y` with the present shape is made
(`Generator::var(const Var &, …)`, src/generator.cc:106-113, which copies no parametrisation, see C121) and gets the
slices; `set_var_params` is then called for the port. -/
def movePort (st : St) (ps : List Nat) (d x y : Nat) : St × Out :=
  moveVar E N { st with
    width := upd st.width y (st.width x)
    widthTie := upd st.widthTie y none
    size := upd st.size y (st.size x)
    sizeTie := upd st.sizeTie y (fun _ => none)
    used := upd (upd st.used y (st.used x)) x (fun _ => 0) } ps d x

end

/-! ## Specification -/

/-- `N` tells the truth. -/
structure Wf (E : Nat → WExpr) (N : Names) : Prop where
  par : ∀ e p, N.par e = some p → Bare E p e
  expr : ∀ p, N.par (N.expr p) = some p

/-- What happens after inlining: parameters that are not set from others get values. -/
inductive Later (E : Nat → WExpr) : St → St → Prop where
  | refl (st) : Later E st st
  | step {st st1 st2 p n v} : Later E st st1 → st1.parent p = none → setValue E n st1 p v = (st2, .ok) → Later E st st2

/-- Every parameter in `e` is set from one of `ps`. -/
def FromParent (E : Nat → WExpr) (st : St) (ps : List Nat) (e : Nat) : Prop :=
  ∀ c ∈ (E e).pars, ∃ P ∈ ps, st.parent c = some P

/-- The value of `e` with every parameter replaced by the one it is set from. -/
def above (E : Nat → WExpr) (st : St) (val : Nat → Int) (e : Nat) : Option Int :=
  (E e).eval fun c => match st.parent c with
    | some P => val P
    | none => val c

/-- `z` in the state `st'` is a faithful copy of `x` in the state `st` before inlining. -/
structure Kept (E : Nat → WExpr) (ps : List Nat) (st st' : St) (d x z : Nat) : Prop where
  /-- A width made of parameters set from the parent's is that expression of the parent's. -/
  width : ∀ e, st.widthTie x = some e → FromParent E st ps e → above E st st'.val e = some (st'.width z)
  size : ∀ i e, i < d → st.sizeTie x i = some e → FromParent E st ps e → above E st st'.val e = some (st'.size z i)
  /-- It is written with a parameter, … -/
  tied : ∀ e, st.widthTie x = some e → FromParent E st ps e → st'.widthTie z ≠ none
  stied : ∀ i e, i < d → st.sizeTie x i = some e → FromParent E st ps e → st'.sizeTie z i ≠ none
  /-- … and with no parameters but the parent's. -/
  own : ∀ e, st'.widthTie z = some e → ∀ p ∈ (E e).pars, p ∈ ps
  sown : ∀ i e, i < d → st'.sizeTie z i = some e → ∀ p ∈ (E e).pars, p ∈ ps
  /-- Any other width is fixed. -/
  fixed : (∀ e, st.widthTie x = some e → ¬ FromParent E st ps e) → st'.width z = st.width x
  sfixed : ∀ i, i < d → (∀ e, st.sizeTie x i = some e → ¬ FromParent E st ps e) → st'.size z i = st.size x i

/-- C122 for a variable. -/
def VarClaim : Prop :=
  ∀ E N st ps d x st1 st', Wf E N → TameReach E st → moveVar E N st ps d x = (st1, .ok) → Later E st1 st' →
    Kept E ps st st' d x x

/-- C122 for a port, which is replaced by a variable nothing knows yet. -/
def PortClaim : Prop :=
  ∀ E N st ps d x y st1 st', Wf E N → TameReach E st → (∀ p, y ∉ st.widthVars p) →
    (∀ p i e, (y, i, e) ∉ st.sizeVars p) → x ≠ y → movePort E N st ps d x y = (st1, .ok) → Later E st1 st' →
    Kept E ps st st' d x y

/-! ## What setting a value does, when ties and registrations need not agree -/

variable {E : Nat → WExpr} {N : Names}

/-- Entries are registered with every parameter of their expression, and no other. -/
def Reg (E : Nat → WExpr) (st : St) : Prop :=
  ∀ p y j e, (y, j, e) ∈ st.sizeVars p → p ∈ (E e).pars ∧ ∀ p' ∈ (E e).pars, (y, j, e) ∈ st.sizeVars p'

def Tree (st : St) : Prop := ∀ c p, c ∈ st.kids p ↔ st.parent c = some p

structure Frame (st st' : St) : Prop where
  widthVars : st'.widthVars = st.widthVars
  sizeVars : st'.sizeVars = st.sizeVars
  kids : st'.kids = st.kids
  parent : st'.parent = st.parent
  widthTie : st'.widthTie = st.widthTie

theorem Frame.refl (st : St) : Frame st st := ⟨rfl, rfl, rfl, rfl, rfl⟩
theorem Frame.trans {a b c : St} (h : Frame a b) (k : Frame b c) : Frame a c :=
  ⟨k.1.trans h.1, k.2.trans h.2, k.3.trans h.3, k.4.trans h.4, k.5.trans h.5⟩
theorem Frame.reg {a b : St} (h : Frame a b) (r : Reg E a) : Reg E b := by
  intro p y j e; rw [h.sizeVars]; exact r p y j e
theorem Frame.tree {a b : St} (h : Frame a b) (t : Tree a) : Tree b := by
  intro c p; rw [h.kids, h.parent]; exact t c p

/-- The parameters in `T` were set to `v`. -/
structure Eff (E : Nat → WExpr) (st st' : St) (T : Nat → Prop) (v : Int) : Prop where
  frame : Frame st st'
  hit : ∀ q, T q → st'.val q = v
  miss : ∀ q, ¬ T q → st'.val q = st.val q
  whit : ∀ x q, T q → x ∈ st.widthVars q → st'.width x = v
  wmiss : ∀ x, (∀ q, T q → x ∉ st.widthVars q) → st'.width x = st.width x
  shit : ∀ x i, (∀ q e, (x, i, e) ∈ st.sizeVars q → Bare E q e) →
    ∀ q e, T q → (x, i, e) ∈ st.sizeVars q → st'.size x i = v
  smiss : ∀ x i, (∀ q e, T q → (x, i, e) ∉ st.sizeVars q) →
    st'.size x i = st.size x i ∧ st'.sizeTie x i = st.sizeTie x i
  tie : ∀ x i, st'.sizeTie x i = st.sizeTie x i ∨
    ∃ q e, T q ∧ (x, i, e) ∈ st.sizeVars q ∧ st'.sizeTie x i = some e

theorem Eff.refl (st : St) (v : Int) : Eff E st st (fun _ => False) v :=
  ⟨.refl _, fun _ h => h.elim, fun _ _ => rfl, fun _ _ h => h.elim, fun _ _ => rfl, fun _ _ _ _ _ h => h.elim,
   fun _ _ _ => ⟨rfl, rfl⟩, fun _ _ => .inl rfl⟩

theorem Eff.congr {st st' : St} {T T' : Nat → Prop} {v : Int} (h : Eff E st st' T v) (hT : ∀ q, T q ↔ T' q) :
    Eff E st st' T' v := by
  have : T = T' := funext fun q => propext (hT q)
  rw [← this]; exact h

theorem Eff.trans {a b c : St} {T T' : Nat → Prop} {v : Int} (h : Eff E a b T v) (k : Eff E b c T' v) :
    Eff E a c (fun q => T q ∨ T' q) v := by
  refine ⟨h.frame.trans k.frame, ?_, ?_, ?_, ?_, ?_, ?_, ?_⟩
  · intro q hq
    rcases Classical.em (T' q) with h' | h'
    · exact k.hit q h'
    · rw [k.miss q h']; exact h.hit q (hq.resolve_right h')
  · intro q hq
    rw [k.miss q fun h' => hq (.inr h'), h.miss q fun h' => hq (.inl h')]
  · intro x q hq hx
    rcases Classical.em (∃ r, T' r ∧ x ∈ b.widthVars r) with ⟨r, hr, hxr⟩ | hno
    · exact k.whit x r hr hxr
    · rw [k.wmiss x fun r hr hxr => hno ⟨r, hr, hxr⟩]
      rcases hq with hq | hq
      · exact h.whit x q hq hx
      · exact absurd ⟨q, hq, by rw [h.frame.widthVars]; exact hx⟩ hno
  · intro x hx
    rw [k.wmiss x fun q hq => by rw [h.frame.widthVars]; exact hx q (.inr hq), h.wmiss x fun q hq => hx q (.inl hq)]
  · intro x i hb q e hq hx
    rcases Classical.em (∃ r f, T' r ∧ (x, i, f) ∈ b.sizeVars r) with ⟨r, f, hr, hxr⟩ | hno
    · exact k.shit x i (by rw [h.frame.sizeVars]; exact hb) r f hr hxr
    · rw [(k.smiss x i fun r f hr hxr => hno ⟨r, f, hr, hxr⟩).1]
      rcases hq with hq | hq
      · exact h.shit x i hb q e hq hx
      · exact absurd ⟨q, e, hq, by rw [h.frame.sizeVars]; exact hx⟩ hno
  · intro x i hx
    have h1 := h.smiss x i fun q e hq => hx q e (.inl hq)
    have h2 := k.smiss x i fun q e hq => by rw [h.frame.sizeVars]; exact hx q e (.inr hq)
    exact ⟨h2.1.trans h1.1, h2.2.trans h1.2⟩
  · intro x i
    rcases k.tie x i with h2 | ⟨q, e, hq, hx, h2⟩
    · rcases h.tie x i with h1 | ⟨q, e, hq, hx, h1⟩
      · exact .inl (h2.trans h1)
      · exact .inr ⟨q, e, .inl hq, hx, h2.trans h1⟩
    · exact .inr ⟨q, e, .inr hq, by rw [← h.frame.sizeVars]; exact hx, h2⟩

theorem upd2 {α : Type} (f : Nat → Nat → α) (x i : Nat) (a : α) (y j : Nat) :
    upd f x (upd (f x) i a) y j = if (y, j) = (x, i) then a else f y j := by
  simp only [Prod.mk.injEq]
  rcases Decidable.em (y = x) with rfl | hyx
  · rw [upd_self]
    rcases Decidable.em (j = i) with rfl | hji
    · simp [upd_self]
    · simp [upd_ne _ _ hji, hji]
  · simp [upd_ne _ _ hyx, hyx]

theorem setSize_ok {st st' : St} {x i e : Nat} (h : setSize E st x i e = (st', .ok)) :
    ∃ d, (E e).eval st.val = some d ∧ st'.val = st.val ∧ st'.width = st.width ∧ st'.widthVars = st.widthVars ∧
      st'.kids = st.kids ∧ st'.parent = st.parent ∧ st'.widthTie = st.widthTie ∧
      (∀ y j, st'.size y j = if (y, j) = (x, i) then d else st.size y j) ∧
      (∀ y j, st'.sizeTie y j = if (y, j) = (x, i) then some e else st.sizeTie y j) ∧
      (∀ p, st'.sizeVars p = if p ∈ (E e).pars then insert (x, i, e) (st.sizeVars p) else st.sizeVars p) := by
  unfold setSize at h
  split at h
  · cases h
  · rename_i d hd
    split at h
    · cases h
    · simp only [Prod.mk.injEq, and_true] at h
      subst h
      exact ⟨d, hd, rfl, rfl, rfl, rfl, rfl, rfl, fun y j => upd2 .., fun y j => upd2 .., fun p => rfl⟩

/-- The loop over the entries of one parameter that has just been set. -/
theorem setSizes_eff {p : Nat} {v : Int} {st' : St} (ts : List (Nat × Nat × Nat)) :
    ∀ {st : St}, Reg E st → (∀ t ∈ ts, t ∈ st.sizeVars p) → setSizes E st ts = (st', .ok) → st.val p = v →
    Frame st st' ∧ st'.val = st.val ∧ st'.width = st.width ∧
    (∀ x i, (∀ e, (x, i, e) ∈ ts → Bare E p e) → ∀ e, (x, i, e) ∈ ts → st'.size x i = v) ∧
    (∀ x i, (∀ e, (x, i, e) ∉ ts) → st'.size x i = st.size x i ∧ st'.sizeTie x i = st.sizeTie x i) ∧
    (∀ x i, st'.sizeTie x i = st.sizeTie x i ∨ ∃ e, (x, i, e) ∈ ts ∧ st'.sizeTie x i = some e) := by
  induction ts with
  | nil =>
    intro st _ _ h _
    simp only [setSizes, Prod.mk.injEq, and_true] at h
    subst h
    exact ⟨.refl _, rfl, rfl, fun _ _ _ _ h => (by cases h), fun _ _ _ => ⟨rfl, rfl⟩, fun _ _ => .inl rfl⟩
  | cons t ts ih =>
    obtain ⟨x, i, e⟩ := t
    intro st hr hm h hv
    unfold setSizes at h
    split at h
    · rename_i st1 h1
      obtain ⟨d, hd, e1, e2, e3, e4, e5, e6, hsz, hti, hsv⟩ := setSize_ok h1
      have hin := hm (x, i, e) (by simp)
      have hsv' : st1.sizeVars = st.sizeVars := by
        funext q
        rw [hsv q]
        split
        · next hq => unfold Param.insert; rw [if_pos ((hr p x i e hin).2 q hq)]
        · rfl
      have hf : Frame st st1 := ⟨e3, hsv', e4, e5, e6⟩
      obtain ⟨f2, v2, w2, s2, m2, t2⟩ := ih (hf.reg hr) (fun t ht => by rw [hsv']; exact hm t (by simp [ht])) h (by rw [e1]; exact hv)
      refine ⟨hf.trans f2, v2.trans e1, w2.trans e2, ?_, ?_, ?_⟩
      · intro y j hb f hy
        rcases Classical.em (∃ g, (y, j, g) ∈ ts) with ⟨g, hg⟩ | hno
        · exact s2 y j (fun e he => hb e (by simp [he])) g hg
        · rw [(m2 y j fun g hg => hno ⟨g, hg⟩).1, hsz]
          rcases List.mem_cons.1 hy with he | he
          · simp only [Prod.mk.injEq] at he
            obtain ⟨rfl, rfl, rfl⟩ := he
            rw [if_pos rfl]
            have := (hb f (by simp)).2 st.val
            rw [hd, hv] at this
            split at this
            · simpa using this
            · cases this
          · exact absurd ⟨f, he⟩ hno
      · intro y j hy
        have h2 := m2 y j fun g hg => hy g (by simp [hg])
        have hne : (y, j) ≠ (x, i) := by
          intro he
          simp only [Prod.mk.injEq] at he
          exact hy e (by rw [he.1, he.2]; simp)
        rw [h2.1, h2.2, hsz, hti, if_neg hne, if_neg hne]
        exact ⟨rfl, rfl⟩
      · intro y j
        rcases t2 y j with h2 | ⟨g, hg, h2⟩
        · rw [h2, hti]
          split
          · next he =>
            simp only [Prod.mk.injEq] at he
            exact .inr ⟨e, by rw [he.1, he.2]; simp, rfl⟩
          · exact .inl rfl
        · exact .inr ⟨g, by simp [hg], h2⟩
    · rename_i r hr'
      cases hs : setSize E st x i e with
      | mk s o => rw [hs] at h hr'; cases o <;> simp_all

theorem desc_cases {st : St} {p q : Nat} (h : Desc st p q) : q = p ∨ ∃ c, st.parent c = some p ∧ Desc st c q := by
  induction h with
  | refl => exact .inl rfl
  | step hd hp ih =>
    rcases ih with rfl | ⟨c, hc, hcq⟩
    · exact .inr ⟨_, hp, .refl⟩
    · exact .inr ⟨c, hc, .step hcq hp⟩

theorem desc_iff {st : St} (ht : Tree st) {p q : Nat} : Desc st p q ↔ q = p ∨ ∃ c ∈ st.kids p, Desc st c q := by
  constructor
  · intro h
    rcases desc_cases h with h | ⟨c, hc, hd⟩
    · exact .inl h
    · exact .inr ⟨c, (ht c p).2 hc, hd⟩
  · rintro (rfl | ⟨c, hc, hd⟩)
    · exact .refl
    · exact (Desc.step .refl ((ht c p).1 hc)).trans hd

theorem desc_frame {a b : St} (h : b.parent = a.parent) {p q : Nat} : Desc b p q ↔ Desc a p q :=
  ⟨fun d => d.same h, fun d => d.same h.symm⟩

theorem forKids_eff {f : St → Nat → St × Out} {v : Int} {st' : St}
    (hf : ∀ st st' c, Reg E st → Tree st → f st c = (st', .ok) → Eff E st st' (Desc st c) v) (cs : List Nat) :
    ∀ {st : St}, Reg E st → Tree st → forKids f st cs = (st', .ok) →
      Eff E st st' (fun q => ∃ c ∈ cs, Desc st c q) v := by
  induction cs with
  | nil =>
    intro st _ _ h
    simp only [forKids, Prod.mk.injEq, and_true] at h
    subst h
    exact (Eff.refl st v).congr fun q => by simp
  | cons c cs ih =>
    intro st hr ht h
    unfold forKids at h
    split at h
    · rename_i st1 h1
      have p1 := hf st st1 c hr ht h1
      have p2 := ih (p1.frame.reg hr) (p1.frame.tree ht) h
      refine (p1.trans p2).congr fun q => ?_
      simp only [desc_frame p1.frame.parent, List.mem_cons, exists_eq_or_imp]
    · rename_i r hr'
      cases hs : f st c with
      | mk s o => rw [hs] at h hr'; cases o <;> simp_all

/-- A successful `set_value` sets exactly the parameter and those derived from it. -/
theorem setValue_eff (n : Nat) : ∀ (st st' : St) (p : Nat) (v : Int), Reg E st → Tree st →
    setValue E n st p v = (st', .ok) → Eff E st st' (Desc st p) v := by
  induction n with
  | zero => intro st st' p v _ _ h; simp [setValue] at h
  | succ n ih =>
    intro st st' p v hr ht h
    unfold setValue at h
    split at h
    · cases h
    · split at h
      · cases h
      · have hf1 : Frame st { st with
            val := upd st.val p v
            width := fun x => if x ∈ st.widthVars p then v else st.width x } := ⟨rfl, rfl, rfl, rfl, rfl⟩
        generalize hst1 : { st with
            val := upd st.val p v
            width := fun x => if x ∈ st.widthVars p then v else st.width x } = st1 at *
        have hv1 : st1.val = upd st.val p v := by rw [← hst1]
        have hw1 : st1.width = fun x => if x ∈ st.widthVars p then v else st.width x := by rw [← hst1]
        have hz1 : st1.size = st.size := by rw [← hst1]
        have ht1 : st1.sizeTie = st.sizeTie := by rw [← hst1]
        simp only at h
        split at h
        · rename_i st2 h2
          obtain ⟨f2, v2, w2, s2, m2, t2⟩ := setSizes_eff (v := v) (st.sizeVars p) (hf1.reg hr)
            (fun t ht => by rw [hf1.sizeVars]; exact ht) h2 (by rw [hv1, upd_self])
          have e1 : Eff E st st2 (fun q => q = p) v := by
            refine ⟨hf1.trans f2, ?_, ?_, ?_, ?_, ?_, ?_, ?_⟩
            · rintro q rfl; rw [v2, hv1, upd_self]
            · intro q hq; rw [v2, hv1, upd_ne _ _ hq]
            · rintro x q rfl hx; rw [w2, hw1]; simp [hx]
            · intro x hx; rw [w2, hw1]; simp [hx p rfl]
            · rintro x i hb q e rfl hx
              exact s2 x i (fun e he => hb q e he) e hx
            · intro x i hx
              have := m2 x i fun e he => hx p e rfl he
              rw [hz1, ht1] at this
              exact this
            · intro x i
              rcases t2 x i with h | ⟨e, he, h⟩
              · exact .inl (by rw [h, ht1])
              · exact .inr ⟨p, e, rfl, he, h⟩
          have e2 := forKids_eff (v := v) (fun a b c hra hta hab => ih a b c v hra hta hab) (st.kids p)
            (e1.frame.reg hr) (e1.frame.tree ht) h
          refine (e1.trans e2).congr fun q => ?_
          rw [desc_iff ht]
          simp only [desc_frame e1.frame.parent]
        · rename_i r hr'
          cases hs : setSizes E st1 (st.sizeVars p) with
          | mk s o => rw [hs] at h hr'; cases o <;> simp_all

/-- Two ancestors of one parameter: one is above the other. -/
theorem desc_linear {st : St} {p r q : Nat} (h : Desc st p q) (k : Desc st r q) : Desc st p r ∨ Desc st r p := by
  induction h with
  | refl => exact .inr k
  | step hd hp ih =>
    cases k with
    | refl => exact .inl (.step hd hp)
    | step hd' hp' =>
      rw [hp] at hp'
      cases hp'
      exact ih hd'

theorem desc_root {st : St} {p r : Nat} (h : Desc st p r) (hr : st.parent r = none) : r = p := by
  cases h with
  | refl => rfl
  | step _ hp => rw [hr] at hp; cases hp

/-- Setting a root either sets `P` and so all below it, or nothing that `P` is above. -/
theorem root_split {st : St} {r P q : Nat} (hr : st.parent r = none) (hq : Desc st P q) (hn : ¬ Desc st r P) : ¬ Desc st r q := by
  intro h
  rcases desc_linear hq h with h | h
  · rw [desc_root h hr] at hn; exact hn .refl
  · exact hn h

/-! ## What is kept later -/

theorem Later.frame {st st' : St} (h : Later E st st') (hr : Reg E st) (ht : Tree st) : Frame st st' := by
  induction h with
  | refl => exact .refl _
  | step _ _ hs ih => exact ih.trans (setValue_eff _ _ _ _ _ (ih.reg hr) (ih.tree ht) hs).frame

/-- Widths registered only with parameters under `P`. -/
theorem later_width {st st' : St} {x P : Nat} (h : Later E st st') (hr : Reg E st) (ht : Tree st)
    (hx : x ∈ st.widthVars P) (hu : ∀ q, x ∈ st.widthVars q → Desc st P q) (hv : st.width x = st.val P) :
    st'.width x = st'.val P := by
  induction h with
  | refl => exact hv
  | @step s t p n v hl hroot hs ih =>
    have hf := hl.frame hr ht
    have he := setValue_eff _ _ _ _ _ (hf.reg hr) (hf.tree ht) hs
    rcases Classical.em (Desc s p P) with hd | hd
    · rw [he.hit P hd, he.whit x P hd (by rw [hf.widthVars]; exact hx)]
    · rw [he.miss P hd, he.wmiss x ?_, ih]
      intro q hq hm
      rw [hf.widthVars] at hm
      exact root_split hroot ((desc_frame hf.parent).2 (hu q hm)) hd hq

theorem later_size {st st' : St} {x i P f : Nat} (h : Later E st st') (hr : Reg E st) (ht : Tree st)
    (hx : (x, i, f) ∈ st.sizeVars P) (hu : ∀ q e, (x, i, e) ∈ st.sizeVars q → Bare E q e ∧ Desc st P q)
    (hv : st.size x i = st.val P) (htie : ∃ q e, (x, i, e) ∈ st.sizeVars q ∧ st.sizeTie x i = some e) :
    st'.size x i = st'.val P ∧ ∃ q e, (x, i, e) ∈ st.sizeVars q ∧ st'.sizeTie x i = some e := by
  induction h with
  | refl => exact ⟨hv, htie⟩
  | @step s t p n v hl hroot hs ih =>
    have hf := hl.frame hr ht
    have he := setValue_eff _ _ _ _ _ (hf.reg hr) (hf.tree ht) hs
    constructor
    · rcases Classical.em (Desc s p P) with hd | hd
      · rw [he.hit P hd]
        exact he.shit x i (fun q e hm => (hu q e (by rw [← hf.sizeVars]; exact hm)).1) P f hd (by rw [hf.sizeVars]; exact hx)
      · rw [he.miss P hd, (he.smiss x i ?_).1, ih.1]
        intro q e hq hm
        rw [hf.sizeVars] at hm
        exact root_split hroot ((desc_frame hf.parent).2 (hu q e hm).2) hd hq
    · rcases he.tie x i with h | ⟨q, e, _, hm, h⟩
      · rw [h]; exact ih.2
      · exact ⟨q, e, by rw [← hf.sizeVars]; exact hm, h⟩

theorem later_fixed {st st' : St} {x : Nat} (h : Later E st st') (hr : Reg E st) (ht : Tree st)
    (hx : ∀ q, x ∉ st.widthVars q) : st'.width x = st.width x := by
  induction h with
  | refl => rfl
  | step hl hroot hs ih =>
    have hf := hl.frame hr ht
    rw [(setValue_eff _ _ _ _ _ (hf.reg hr) (hf.tree ht) hs).wmiss x fun q _ => by rw [hf.widthVars]; exact hx q, ih]

theorem later_sfixed {st st' : St} {x i : Nat} (h : Later E st st') (hr : Reg E st) (ht : Tree st)
    (hx : ∀ q e, (x, i, e) ∉ st.sizeVars q) : st'.size x i = st.size x i ∧ st'.sizeTie x i = st.sizeTie x i := by
  induction h with
  | refl => exact ⟨rfl, rfl⟩
  | step hl hroot hs ih =>
    have hf := hl.frame hr ht
    have := (setValue_eff _ _ _ _ _ (hf.reg hr) (hf.tree ht) hs).smiss x i fun q e _ => by rw [hf.sizeVars]; exact hx q e
    rw [this.1, this.2]
    exact ih

/-! ## What inlining does -/

theorem search_some {st : St} {ps : List Nat} {e P : Nat} (h : search N st ps e = some P) :
    ∃ c, N.par e = some c ∧ st.parent c = some P ∧ P ∈ ps := by
  unfold search at h
  have h1 := List.find?_some h
  have h2 := List.mem_of_find?_eq_some h
  split at h1
  · next c hc => exact ⟨c, hc, by simpa using h1, h2⟩
  · cases h1

theorem search_found {st : St} {ps : List Nat} {e c P : Nat} (hc : N.par e = some c) (hp : st.parent c = some P)
    (hm : P ∈ ps) : search N st ps e = some P := by
  cases hs : search N st ps e with
  | some Q =>
    obtain ⟨c', h1, h2, _⟩ := search_some hs
    rw [hc] at h1
    cases h1
    rw [← h2, hp]
  | none =>
    unfold search at hs
    have := List.find?_eq_none.1 hs P hm
    simp [hc, hp] at this

theorem search_congr {st st' : St} {ps : List Nat} {e : Nat} (h : st'.parent = st.parent) :
    search N st' ps e = search N st ps e := by
  unfold search; rw [h]

structure Moved (E : Nat → WExpr) (st st' : St) (x i : Nat) : Prop where
  val : st'.val = st.val
  width : st'.width = st.width
  widthVars : st'.widthVars = st.widthVars
  kids : st'.kids = st.kids
  parent : st'.parent = st.parent
  widthTie : st'.widthTie = st.widthTie
  reg : Reg E st'
  size : ∀ y j, (y, j) ≠ (x, i) → st'.size y j = st.size y j
  sizeTie : ∀ y j, (y, j) ≠ (x, i) → st'.sizeTie y j = st.sizeTie y j
  sizeVars : ∀ y j f q, (y, j) ≠ (x, i) → ((y, j, f) ∈ st'.sizeVars q ↔ (y, j, f) ∈ st.sizeVars q)

theorem untieSize_moved {st st' : St} {x i : Nat} (hr : Reg E st) (h : untieSize E st x i = (st', .ok)) :
    Moved E st st' x i ∧ st'.size = st.size ∧ st'.sizeTie x i = none ∧
      ∀ q f, (x, i, f) ∈ st'.sizeVars q → (x, i, f) ∈ st.sizeVars q ∧ st.sizeTie x i ≠ some f := by
  unfold untieSize at h
  split at h
  · next hn =>
    simp only [Prod.mk.injEq, and_true] at h
    subst h
    refine ⟨⟨rfl, rfl, rfl, rfl, rfl, rfl, hr, fun _ _ _ => rfl, fun _ _ _ => rfl, fun _ _ _ _ _ => Iff.rfl⟩, rfl, hn, ?_⟩
    intro q f hm
    exact ⟨hm, by rw [hn]; simp⟩
  · next e he =>
    simp only [Prod.mk.injEq, and_true] at h
    subst h
    have hmem : ∀ q y j f, (y, j, f) ∈ (if q ∈ (E e).pars then (st.sizeVars q).filter (· ≠ (x, i, e)) else st.sizeVars q) ↔
        (y, j, f) ∈ st.sizeVars q ∧ (y, j, f) ≠ (x, i, e) := by
      intro q y j f
      split
      · rw [List.mem_filter, decide_eq_true_eq]
      · next hq =>
        refine ⟨fun hm => ⟨hm, fun heq => ?_⟩, fun hm => hm.1⟩
        rw [heq] at hm
        exact hq (hr q x i e hm).1
    refine ⟨⟨rfl, rfl, rfl, rfl, rfl, rfl, ?_, fun _ _ _ => rfl, ?_, ?_⟩, rfl, ?_, ?_⟩
    · intro p y j f hm
      simp only [hmem] at hm ⊢
      exact ⟨(hr p y j f hm.1).1, fun p' hp' => ⟨(hr p y j f hm.1).2 p' hp', hm.2⟩⟩
    · intro y j hne
      simp only [upd2, if_neg hne]
    · intro y j f q hne
      simp only [hmem]
      refine ⟨fun h => h.1, fun h => ⟨h, fun heq => hne ?_⟩⟩
      simp only [Prod.mk.injEq] at heq
      rw [heq.1, heq.2.1]
    · simp only [upd2, if_true]
    · intro q f hm
      simp only [hmem] at hm
      refine ⟨hm.1, fun heq => hm.2 ?_⟩
      rw [he] at heq
      simp at heq
      rw [heq]

theorem moveSize_moved {st st' : St} {ps : List Nat} {x i : Nat} (hw : Wf E N) (hr : Reg E st)
    (h : moveSize E N st ps x i = (st', .ok)) :
    Moved E st st' x i ∧
    ((∃ e P, st.sizeTie x i = some e ∧ search N st ps e = some P ∧ st'.size x i = st.val P ∧
        st'.sizeTie x i = some (N.expr P) ∧ (x, i, N.expr P) ∈ st'.sizeVars P ∧
        ∀ q f, (x, i, f) ∈ st'.sizeVars q → (x, i, f) ∈ st.sizeVars q ∨ (q = P ∧ f = N.expr P)) ∨
     ((∀ e, st.sizeTie x i = some e → search N st ps e = none) ∧ st'.size x i = st.size x i ∧ st'.sizeTie x i = none ∧
        ∀ q f, (x, i, f) ∈ st'.sizeVars q → (x, i, f) ∈ st.sizeVars q ∧ st.sizeTie x i ≠ some f)) := by
  unfold moveSize at h
  split at h
  · next hn =>
    obtain ⟨a, b, c, d⟩ := untieSize_moved hr h
    exact ⟨a, .inr ⟨fun e he => (by rw [hn] at he; cases he), by rw [b], c, d⟩⟩
  · next e he =>
    split at h
    · next P hP =>
      obtain ⟨c, hc, hcp, hPm⟩ := search_some hP
      have hb := hw.par e c hc
      have hbP := hw.par _ _ (hw.expr P)
      generalize hst1 : { st with sizeVars := upd st.sizeVars P ((st.sizeVars P).filter (· ≠ (x, i, e))) } = st1 at h
      have hmem : ∀ q y j f, (y, j, f) ∈ st1.sizeVars q → (y, j, f) ∈ st.sizeVars q := by
        intro q y j f hm
        rw [← hst1] at hm
        simp only [upd] at hm
        split at hm
        · next hq => rw [hq]; exact (List.mem_filter.1 hm).1
        · exact hm
      have hmem' : ∀ q y j f, (y, j, f) ≠ (x, i, e) → (y, j, f) ∈ st.sizeVars q → (y, j, f) ∈ st1.sizeVars q := by
        intro q y j f hne hm
        rw [← hst1]
        simp only [upd]
        split
        · next hq => rw [hq] at hm; exact List.mem_filter.2 ⟨hm, decide_eq_true hne⟩
        · exact hm
      have hreg1 : Reg E st1 := by
        intro p y j f hm
        have h0 := hr p y j f (hmem p y j f hm)
        refine ⟨h0.1, fun p' hp' => ?_⟩
        rcases Classical.em ((y, j, f) = (x, i, e)) with heq | hne
        · simp only [Prod.mk.injEq] at heq
          obtain ⟨rfl, rfl, rfl⟩ := heq
          have h1 := h0.1
          rw [hb.1] at h1 hp'
          simp only [List.mem_singleton] at h1 hp'
          rw [hp', ← h1]
          exact hm
        · exact hmem' _ _ _ _ hne (h0.2 p' hp')
      obtain ⟨d, hd, e1, e2, e3, e4, e5, e6, hsz, hti, hsv⟩ := setSize_ok h
      have v1 : st1.val = st.val := by rw [← hst1]
      have hdP : d = st.val P := by
        rw [v1, hbP.2] at hd
        split at hd
        · simpa using hd.symm
        · cases hd
      have hsv' : ∀ q y j f, (y, j, f) ∈ st'.sizeVars q ↔ (y, j, f) ∈ st1.sizeVars q ∨ (q = P ∧ (y, j, f) = (x, i, N.expr P)) := by
        intro q y j f
        rw [hsv q, hbP.1]
        simp only [List.mem_singleton]
        split
        · next hq => rw [mem_insert]; simp [hq, Or.comm]
        · next hq => simp [hq]
      refine ⟨⟨by rw [e1, v1], by rw [e2, ← hst1], by rw [e3, ← hst1], by rw [e4, ← hst1], by rw [e5, ← hst1],
        by rw [e6, ← hst1], ?_, ?_, ?_, ?_⟩, .inl ⟨e, P, he, hP, ?_, ?_, ?_, ?_⟩⟩
      · intro p y j f hm
        rw [hsv'] at hm
        rcases hm with hm | ⟨rfl, hm⟩
        · exact ⟨(hreg1 p y j f hm).1, fun p' hp' => (hsv' ..).2 (.inl ((hreg1 p y j f hm).2 p' hp'))⟩
        · simp only [Prod.mk.injEq] at hm
          obtain ⟨rfl, rfl, rfl⟩ := hm
          rw [hbP.1]
          refine ⟨by simp, fun p' hp' => ?_⟩
          simp only [List.mem_singleton] at hp'
          exact (hsv' ..).2 (.inr ⟨hp', rfl⟩)
      · intro y j hne; rw [hsz, if_neg hne, ← hst1]
      · intro y j hne; rw [hti, if_neg hne, ← hst1]
      · intro y j f q hne
        rw [hsv']
        have hne' : ∀ g, (y, j, f) ≠ (x, i, g) := by
          intro g heq
          simp only [Prod.mk.injEq] at heq
          exact hne (by rw [heq.1, heq.2.1])
        exact ⟨fun h => h.elim (hmem _ _ _ _) fun h => absurd h.2 (hne' _), fun h => .inl (hmem' _ _ _ _ (hne' _) h)⟩
      · rw [hsz, if_pos rfl, hdP]
      · rw [hti, if_pos rfl]
      · exact (hsv' ..).2 (.inr ⟨rfl, rfl⟩)
      · intro q f hm
        rcases (hsv' ..).1 hm with hm | ⟨hq, hm⟩
        · exact .inl (hmem _ _ _ _ hm)
        · simp only [Prod.mk.injEq, true_and] at hm
          exact .inr ⟨hq, hm⟩
    · next hn =>
      obtain ⟨a, b, c, d⟩ := untieSize_moved hr h
      refine ⟨a, .inr ⟨fun f hf => ?_, by rw [b], c, d⟩⟩
      rw [he] at hf
      cases hf
      exact hn

/-- The loop leaves alone what it does not visit. -/
structure Rest (E : Nat → WExpr) (st st' : St) (x : Nat) (l : List Nat) : Prop where
  val : st'.val = st.val
  width : st'.width = st.width
  widthVars : st'.widthVars = st.widthVars
  kids : st'.kids = st.kids
  parent : st'.parent = st.parent
  widthTie : st'.widthTie = st.widthTie
  reg : Reg E st'
  size : ∀ y j, y ≠ x ∨ j ∉ l → st'.size y j = st.size y j
  sizeTie : ∀ y j, y ≠ x ∨ j ∉ l → st'.sizeTie y j = st.sizeTie y j
  sizeVars : ∀ y j f q, y ≠ x ∨ j ∉ l → ((y, j, f) ∈ st'.sizeVars q ↔ (y, j, f) ∈ st.sizeVars q)

theorem moveSizes_cons {st st' : St} {ps : List Nat} {x i : Nat} {l : List Nat}
    (h : moveSizes E N st ps x (i :: l) = (st', .ok)) :
    ∃ s, moveSize E N st ps x i = (s, .ok) ∧ moveSizes E N s ps x l = (st', .ok) := by
  unfold moveSizes at h
  cases hs : moveSize E N st ps x i with
  | mk s o =>
    rw [hs] at h
    cases o <;> simp_all

theorem moveSizes_rest {ps : List Nat} {x : Nat} {st' : St} (hw : Wf E N) : ∀ (l : List Nat) {st : St}, Reg E st →
    moveSizes E N st ps x l = (st', .ok) → Rest E st st' x l
  | [], st, hr, h => by
    simp only [moveSizes, Prod.mk.injEq, and_true] at h
    subst h
    exact ⟨rfl, rfl, rfl, rfl, rfl, rfl, hr, fun _ _ _ => rfl, fun _ _ _ => rfl, fun _ _ _ _ _ => Iff.rfl⟩
  | i :: l, st, hr, h => by
    obtain ⟨s, h1, h2⟩ := moveSizes_cons h
    obtain ⟨m, _⟩ := moveSize_moved hw hr h1
    have r := moveSizes_rest hw l m.reg h2
    have key : ∀ y j, y ≠ x ∨ j ∉ i :: l → (y, j) ≠ (x, i) ∧ (y ≠ x ∨ j ∉ l) := by
      intro y j hyj
      constructor
      · intro heq
        simp only [Prod.mk.injEq] at heq
        rcases hyj with h | h
        · exact h heq.1
        · exact h (by rw [heq.2]; simp)
      · rcases hyj with h | h
        · exact .inl h
        · exact .inr fun hm => h (by simp [hm])
    refine ⟨r.val.trans m.val, r.width.trans m.width, r.widthVars.trans m.widthVars, r.kids.trans m.kids,
      r.parent.trans m.parent, r.widthTie.trans m.widthTie, r.reg, ?_, ?_, ?_⟩
    · intro y j hyj; rw [r.size y j (key y j hyj).2, m.size y j (key y j hyj).1]
    · intro y j hyj; rw [r.sizeTie y j (key y j hyj).2, m.sizeTie y j (key y j hyj).1]
    · intro y j f q hyj; rw [r.sizeVars y j f q (key y j hyj).2, m.sizeVars y j f q (key y j hyj).1]

/-- A dimension the loop visits. -/
theorem moveSizes_hit {ps : List Nat} {x i : Nat} {st' : St} (hw : Wf E N) : ∀ (l : List Nat) {st : St}, Reg E st →
    l.Nodup → i ∈ l → moveSizes E N st ps x l = (st', .ok) →
    ((∃ e P, st.sizeTie x i = some e ∧ search N st ps e = some P ∧ st'.size x i = st.val P ∧
        st'.sizeTie x i = some (N.expr P) ∧ (x, i, N.expr P) ∈ st'.sizeVars P ∧
        ∀ q f, (x, i, f) ∈ st'.sizeVars q → (x, i, f) ∈ st.sizeVars q ∨ (q = P ∧ f = N.expr P)) ∨
     ((∀ e, st.sizeTie x i = some e → search N st ps e = none) ∧ st'.size x i = st.size x i ∧ st'.sizeTie x i = none ∧
        ∀ q f, (x, i, f) ∈ st'.sizeVars q → (x, i, f) ∈ st.sizeVars q ∧ st.sizeTie x i ≠ some f))
  | [], _, _, _, hi, _ => by cases hi
  | k :: l, st, hr, hnd, hi, h => by
    obtain ⟨s, h1, h2⟩ := moveSizes_cons h
    obtain ⟨m, hcase⟩ := moveSize_moved hw hr h1
    rcases Classical.em (i = k) with rfl | hne
    · have hnl : i ∉ l := (List.nodup_cons.1 hnd).1
      have r := moveSizes_rest hw l m.reg h2
      have a := r.size x i (.inr hnl)
      have b := r.sizeTie x i (.inr hnl)
      have c := fun f q => r.sizeVars x i f q (.inr hnl)
      simp only [a, b, c]
      exact hcase
    · have hil : i ∈ l := (List.mem_cons.1 hi).resolve_left hne
      have ih := moveSizes_hit hw l m.reg (List.nodup_cons.1 hnd).2 hil h2
      have hp : (x, i) ≠ (x, k) := by simp [hne]
      simp only [m.size x i hp, m.sizeTie x i hp, m.sizeVars x i _ _ hp, m.val, search_congr m.parent] at ih
      exact ih

theorem moveVar_split {st st' : St} {ps : List Nat} {d x : Nat} (h : moveVar E N st ps d x = (st', .ok)) :
    ∃ s, moveWidth E N st ps x = (s, .ok) ∧ moveSizes E N s ps x (List.range d) = (st', .ok) := by
  unfold moveVar at h
  cases hs : moveWidth E N st ps x with
  | mk s o =>
    rw [hs] at h
    cases o <;> simp_all

/-- What the width part leaves alone. -/
theorem moveWidth_ok {st s : St} {ps : List Nat} {x : Nat} (hw : Wf E N) (h : moveWidth E N st ps x = (s, .ok)) :
    s.val = st.val ∧ s.kids = st.kids ∧ s.parent = st.parent ∧ s.sizeVars = st.sizeVars ∧ s.size = st.size ∧
    s.sizeTie = st.sizeTie ∧ (∀ y, y ≠ x → s.width y = st.width y ∧ s.widthTie y = st.widthTie y) ∧
    (∀ y q, y ≠ x → (y ∈ s.widthVars q ↔ y ∈ st.widthVars q)) ∧
    ((∃ e P, st.widthTie x = some e ∧ search N st ps e = some P ∧ s.width x = st.val P ∧
        s.widthTie x = some (N.expr P) ∧ x ∈ s.widthVars P ∧
        ∀ q, x ∈ s.widthVars q ↔ x ∈ st.widthVars q ∨ q = P) ∨
     ((∀ e, st.widthTie x = some e → search N st ps e = none) ∧ s.width x = st.width x ∧ s.widthTie x = none ∧
        ∀ q, x ∈ s.widthVars q ↔ x ∈ st.widthVars q ∨ ∃ e, st.widthTie x = some e ∧ q ∈ (E e).pars)) := by
  unfold moveWidth at h
  split at h
  · next hn =>
    simp only [Prod.mk.injEq, and_true] at h
    subst h
    exact ⟨rfl, rfl, rfl, rfl, rfl, rfl, fun _ _ => ⟨rfl, rfl⟩, fun _ _ _ => Iff.rfl,
      .inr ⟨fun e he => (by rw [hn] at he; cases he), rfl, hn, fun q => by simp [hn]⟩⟩
  · next e he =>
    split at h
    · next P hP =>
      have hbP := hw.par _ _ (hw.expr P)
      unfold tieWidth at h
      split at h
      · cases h
      · next w hw' =>
        simp only [Prod.mk.injEq, and_true] at h
        subst h
        have hwP : w = st.val P := by
          rw [hbP.2] at hw'
          split at hw'
          · simpa using hw'.symm
          · cases hw'
        refine ⟨rfl, rfl, rfl, rfl, rfl, rfl, fun y hy => ⟨upd_ne _ _ hy, upd_ne _ _ hy⟩, ?_,
          .inl ⟨e, P, he, hP, ?_, upd_self .., ?_, ?_⟩⟩
        · intro y q hy
          dsimp only
          split
          · rw [mem_insert]; simp [hy]
          · rfl
        · simp only [upd_self, hwP]
        · simp [hbP.1, mem_insert]
        · intro q
          dsimp only
          rw [hbP.1]
          split
          · next hq => rw [mem_insert]; simp only [List.mem_singleton] at hq; simp [hq]
          · next hq => simp only [List.mem_singleton] at hq; simp [hq]
    · next hn =>
      unfold untieWidth at h
      rw [he] at h
      simp only [Prod.mk.injEq, and_true] at h
      subst h
      refine ⟨rfl, rfl, rfl, rfl, rfl, rfl, fun y hy => ⟨rfl, upd_ne _ _ hy⟩, ?_,
        .inr ⟨fun f hf => (by rw [he] at hf; cases hf; exact hn), rfl, upd_self .., ?_⟩⟩
      · intro y q hy
        dsimp only
        split
        · rw [mem_insert]; simp [hy]
        · rfl
      · intro q
        dsimp only
        split
        · next hq => rw [mem_insert]; simp [he, hq]
        · next hq => simp [he, hq]

theorem linked_reg {st : St} (hl : Linked E st) : Reg E st := by
  intro p y j e hm
  obtain ⟨a, b⟩ := (hl.sreg p y j e).1 hm
  exact ⟨b, fun p' hp' => (hl.sreg p' y j e).2 ⟨a, hp'⟩⟩

/-- Everything a move does to a variable that was declared properly. -/
theorem moveVar_ok {st st1 : St} {ps : List Nat} {d x : Nat} (hw : Wf E N) (hl : Linked E st)
    (h : moveVar E N st ps d x = (st1, .ok)) :
    ∃ s, moveWidth E N st ps x = (s, .ok) ∧ Rest E s st1 x (List.range d) ∧ Reg E st1 ∧ Tree st1 ∧ st1.parent = st.parent := by
  obtain ⟨s, h1, h2⟩ := moveVar_split h
  obtain ⟨a1, a2, a3, a4, -⟩ := moveWidth_ok hw h1
  have hr : Reg E s := by intro p y j e; rw [a4]; exact linked_reg hl p y j e
  have r := moveSizes_rest hw _ hr h2
  exact ⟨s, h1, r, r.reg, by intro c p; rw [r.kids, r.parent, a2, a3]; exact hl.preg c p, by rw [r.parent, a3]⟩

/-! ## Theorems -/

/-- **C122** for the width of a variable: if it is a parameter that is set from a parameter `P` of the parent, then after inlining and whatever values
are given to parameters later, the width is the value of `P` and is written `P`.  Missing: widths that are
expressions (`width_expression_wrong`), ports (`port_frozen`). -/
theorem width_partial {st st1 st' : St} {ps : List Nat} {d x e c P : Nat} (hw : Wf E N) (ht : TameReach E st)
    (hx : st.widthTie x = some e) (hc : N.par e = some c) (hP : st.parent c = some P) (hm : P ∈ ps)
    (h : moveVar E N st ps d x = (st1, .ok)) (hlater : Later E st1 st') :
    st'.width x = st'.val P ∧ st'.widthTie x = some (N.expr P) := by
  have hl := ht.ok.1
  obtain ⟨s, h1, r, hr, htr, hpar⟩ := moveVar_ok hw hl h
  obtain ⟨a1, a2, a3, a4, a5, a6, a7, a8, hcase⟩ := moveWidth_ok hw h1
  have hb := hw.par e c hc
  rcases hcase with ⟨e', P', he', hP', w, t, m, u⟩ | ⟨hno, -⟩
  · rw [hx] at he'
    cases he'
    rw [search_found hc hP hm] at hP'
    cases hP'
    refine ⟨later_width hlater hr htr (by rw [r.widthVars]; exact m) ?_ (by rw [r.width, r.val, a1, w]), ?_⟩
    · intro q hq
      rw [r.widthVars, u] at hq
      rw [desc_frame hpar]
      rcases hq with hq | hq
      · obtain ⟨f, hf, hqf⟩ := hl.wtie q x hq
        rw [hx] at hf
        cases hf
        rw [hb.1] at hqf
        simp only [List.mem_singleton] at hqf
        rw [hqf]
        exact .step .refl hP
      · rw [hq]; exact .refl
    · rw [(hlater.frame hr htr).widthTie, r.widthTie, t]
  · have := hno e hx
    rw [search_found hc hP hm] at this
    cases this

/-- **C122** for a dimension of a variable: its size is the value of `P`, whatever values are given later.
Missing: expressions (`size_expression_frozen`), and how it is written: either with `P` or again with the
parameter of the instance (`retied`). -/
theorem size_partial {st st1 st' : St} {ps : List Nat} {d x i e c P : Nat} (hw : Wf E N) (ht : TameReach E st)
    (hi : i < d) (hx : st.sizeTie x i = some e) (hc : N.par e = some c) (hP : st.parent c = some P) (hm : P ∈ ps)
    (h : moveVar E N st ps d x = (st1, .ok)) (hlater : Later E st1 st') :
    st'.size x i = st'.val P ∧ (st'.sizeTie x i = some (N.expr P) ∨ st'.sizeTie x i = some e) := by
  have hl := ht.ok.1
  have hb := hw.par e c hc
  have hbP := hw.par _ _ (hw.expr P)
  obtain ⟨s, h1, h2⟩ := moveVar_split h
  obtain ⟨s', h1', r, hr, htr, hpar⟩ := moveVar_ok hw hl h
  rw [h1] at h1'
  cases h1'
  obtain ⟨a1, a2, a3, a4, a5, a6, a7, a8, -⟩ := moveWidth_ok hw h1
  have hrs : Reg E s := by intro p y j e; rw [a4]; exact linked_reg hl p y j e
  have hold : ∀ q f, (x, i, f) ∈ s.sizeVars q → q = c ∧ f = e := by
    intro q f hmem
    rw [a4] at hmem
    obtain ⟨p1, p2⟩ := (hl.sreg q x i f).1 hmem
    rw [hx] at p1
    cases p1
    rw [hb.1] at p2
    exact ⟨by simpa using p2, rfl⟩
  rcases moveSizes_hit hw (List.range d) hrs List.nodup_range (List.mem_range.2 hi) h2 with
    ⟨e', P', he', hP', w, t, m, u⟩ | ⟨hno, -⟩
  · rw [a6, hx] at he'
    cases he'
    rw [search_congr a3, search_found hc hP hm] at hP'
    cases hP'
    have hu : ∀ q f, (x, i, f) ∈ st1.sizeVars q → (q = c ∧ f = e) ∨ (q = P ∧ f = N.expr P) :=
      fun q f hmem => (u q f hmem).imp (hold q f) id
    obtain ⟨k1, q, f, hqf, k2⟩ := later_size hlater hr htr m (fun q f hmem => by
      rcases hu q f hmem with ⟨rfl, rfl⟩ | ⟨rfl, rfl⟩
      · exact ⟨hb, (desc_frame hpar).2 (.step .refl hP)⟩
      · exact ⟨hbP, .refl⟩) (by rw [w, r.val]) ⟨P, _, m, t⟩
    refine ⟨k1, ?_⟩
    rcases hu q f hqf with ⟨-, rfl⟩ | ⟨-, rfl⟩
    · exact .inr k2
    · exact .inl k2
  · have := hno e (by rw [a6]; exact hx)
    rw [search_congr a3, search_found hc hP hm] at this
    cases this

/-- **C122**: a width that is not parametrised stays what it is. -/
theorem plain_width {st st1 st' : St} {ps : List Nat} {d x : Nat} (hw : Wf E N) (ht : TameReach E st)
    (hx : st.widthTie x = none) (h : moveVar E N st ps d x = (st1, .ok)) (hlater : Later E st1 st') :
    st'.width x = st.width x ∧ st'.widthTie x = none := by
  have hl := ht.ok.1
  obtain ⟨s, h1, r, hr, htr, hpar⟩ := moveVar_ok hw hl h
  obtain ⟨a1, a2, a3, a4, a5, a6, a7, a8, hcase⟩ := moveWidth_ok hw h1
  rcases hcase with ⟨e', P', he', -⟩ | ⟨-, w, t, u⟩
  · rw [hx] at he'; cases he'
  · constructor
    · rw [later_fixed hlater hr htr, r.width, w]
      intro q hq
      rw [r.widthVars, u] at hq
      rcases hq with hq | ⟨e, he, -⟩
      · obtain ⟨f, hf, -⟩ := hl.wtie q x hq
        rw [hx] at hf; cases hf
      · rw [hx] at he; cases he
    · rw [(hlater.frame hr htr).widthTie, r.widthTie, t]

/-- **C122**: a dimension that is not parametrised, or with parameters not set from the parent's, stays what
it is and is written as a number.  The same happens to an expression of such parameters, where it is wrong. -/
theorem size_frozen {st st1 st' : St} {ps : List Nat} {d x i : Nat} (hw : Wf E N) (ht : TameReach E st)
    (hi : i < d) (hx : ∀ e, st.sizeTie x i = some e → N.par e = none ∨ ¬ FromParent E st ps e)
    (h : moveVar E N st ps d x = (st1, .ok)) (hlater : Later E st1 st') :
    st'.size x i = st.size x i ∧ st'.sizeTie x i = none := by
  have hl := ht.ok.1
  obtain ⟨s, h1, h2⟩ := moveVar_split h
  obtain ⟨s', h1', r, hr, htr, hpar⟩ := moveVar_ok hw hl h
  rw [h1] at h1'
  cases h1'
  obtain ⟨a1, a2, a3, a4, a5, a6, a7, a8, -⟩ := moveWidth_ok hw h1
  have hrs : Reg E s := by intro p y j e; rw [a4]; exact linked_reg hl p y j e
  rcases moveSizes_hit hw (List.range d) hrs List.nodup_range (List.mem_range.2 hi) h2 with
    ⟨e', P', he', hP', -⟩ | ⟨-, w, t, u⟩
  · rw [a6] at he'
    rw [search_congr a3] at hP'
    obtain ⟨c, hc, hcP, hm⟩ := search_some hP'
    rcases hx e' he' with h0 | h0
    · rw [hc] at h0; cases h0
    · refine absurd (fun p hp => ?_) h0
      rw [(hw.par e' c hc).1] at hp
      simp only [List.mem_singleton] at hp
      rw [hp]
      exact ⟨P', hm, hcP⟩
  · have := later_sfixed hlater hr htr (fun q f hmem => by
      obtain ⟨m1, m2⟩ := u q f hmem
      rw [a4] at m1
      rw [a6] at m2
      exact m2 ((hl.sreg q x i f).1 m1).1)
    rw [this.1, this.2, w, t, a5]
    exact ⟨rfl, rfl⟩

/-- A dimension that is an expression of parameters all of which are set from the parent's is frozen all the
same: it no longer follows. -/
theorem size_expression_frozen {st st1 st' : St} {ps : List Nat} {d x i e : Nat} (hw : Wf E N) (ht : TameReach E st)
    (hi : i < d) (hx : st.sizeTie x i = some e) (he : N.par e = none) (h : moveVar E N st ps d x = (st1, .ok))
    (hlater : Later E st1 st') : st'.size x i = st.size x i ∧ st'.sizeTie x i = none :=
  size_frozen hw ht hi (fun f hf => by rw [hx] at hf; cases hf; exact .inl he) h hlater

/-- A width that is an expression, or a parameter not set from the parent's, is written as a number … -/
theorem width_number {st st1 st' : St} {ps : List Nat} {d x : Nat} (hw : Wf E N) (ht : TameReach E st)
    (hx : ∀ e, st.widthTie x = some e → N.par e = none ∨ ¬ FromParent E st ps e)
    (h : moveVar E N st ps d x = (st1, .ok)) (hlater : Later E st1 st') :
    st1.width x = st.width x ∧ st'.widthTie x = none := by
  have hl := ht.ok.1
  obtain ⟨s, h1, r, hr, htr, hpar⟩ := moveVar_ok hw hl h
  obtain ⟨a1, a2, a3, a4, a5, a6, a7, a8, hcase⟩ := moveWidth_ok hw h1
  rcases hcase with ⟨e', P', he', hP', -⟩ | ⟨-, w, t, u⟩
  · obtain ⟨c, hc, hcP, hm⟩ := search_some hP'
    rcases hx e' he' with h0 | h0
    · rw [hc] at h0; cases h0
    · refine absurd (fun p hp => ?_) h0
      rw [(hw.par e' c hc).1] at hp
      simp only [List.mem_singleton] at hp
      rw [hp]
      exact ⟨P', hm, hcP⟩
  · exact ⟨by rw [r.width, w], by rw [(hlater.frame hr htr).widthTie, r.widthTie, t]⟩

/-- … but the number changes: the next value given to a parameter in it becomes the width, as if the
expression were the parameter. -/
theorem width_expression_wrong {st st1 st2 : St} {ps : List Nat} {d x e p n : Nat} {v : Int} (hw : Wf E N)
    (ht : TameReach E st) (hx : st.widthTie x = some e) (hp : p ∈ (E e).pars)
    (hn : N.par e = none ∨ ¬ FromParent E st ps e)
    (h : moveVar E N st ps d x = (st1, .ok)) (hs : setValue E n st1 p v = (st2, .ok)) :
    st2.width x = v ∧ st2.widthTie x = none := by
  have hl := ht.ok.1
  obtain ⟨s, h1, r, hr, htr, hpar⟩ := moveVar_ok hw hl h
  have he := setValue_eff _ _ _ _ _ hr htr hs
  have hno := width_number hw ht (fun f hf => by rw [hx] at hf; cases hf; exact hn) h (.refl st1)
  refine ⟨he.whit x p .refl ?_, by rw [he.frame.widthTie]; exact hno.2⟩
  obtain ⟨a1, a2, a3, a4, a5, a6, a7, a8, hcase⟩ := moveWidth_ok hw h1
  rw [r.widthVars]
  have hxm := hl.wreg x e hx p hp
  rcases hcase with ⟨_, _, _, _, _, _, _, u⟩ | ⟨_, _, _, u⟩
  · exact (u p).2 (.inl hxm)
  · exact (u p).2 (.inl hxm)

/-- A port that is inlined becomes a variable of the present width and sizes, written as numbers, which no
parameter changes any more. -/
theorem port_frozen {st st1 st' : St} {ps : List Nat} {d x y : Nat} (hw : Wf E N) (ht : TameReach E st)
    (hf : ∀ p, y ∉ st.widthVars p) (hfs : ∀ p i e, (y, i, e) ∉ st.sizeVars p) (hxy : x ≠ y)
    (h : movePort E N st ps d x y = (st1, .ok)) (hlater : Later E st1 st') :
    st'.width y = st.width x ∧ st'.widthTie y = none ∧
      ∀ i, st'.size y i = st.size x i ∧ st'.sizeTie y i = none := by
  have hl := ht.ok.1
  unfold movePort at h
  obtain ⟨s, h1, h2⟩ := moveVar_split h
  obtain ⟨a1, a2, a3, a4, a5, a6, a7, a8, -⟩ := moveWidth_ok hw h1
  have hrs : Reg E s := by intro p y j e; rw [a4]; exact linked_reg hl p y j e
  have r := moveSizes_rest hw _ hrs h2
  have htr : Tree st1 := by intro c p; rw [r.kids, r.parent, a2, a3]; exact hl.preg c p
  have hyx : y ≠ x := fun h => hxy h.symm
  have b := a7 y hyx
  refine ⟨?_, ?_, fun i => ?_⟩
  · rw [later_fixed hlater r.reg htr, r.width, b.1]
    · exact upd_self ..
    · intro q hq
      rw [r.widthVars, a8 y q hyx] at hq
      exact hf q hq
  · rw [(hlater.frame r.reg htr).widthTie, r.widthTie, b.2]
    exact upd_self ..
  · have := later_sfixed (x := y) (i := i) hlater r.reg htr (fun q e hm => by
      rw [r.sizeVars y i e q (.inl hyx), a4] at hm
      exact hfs q i e hm)
    rw [this.1, this.2, r.size y i (.inl hyx), r.sizeTie y i (.inl hyx), a5, a6]
    simp only [upd_self]
    simp

/-! ## A design, and the counterexamples

Parameter 0 is the parent's, parameter 1 the instance's, set from it.  Expressions as in C12: 0 is `P0`,
1 is `P0 + 1`, 2 is `P1`, 3 is `P1 + 1`; all further ones are parameters nothing uses. -/

def E1 : Nat → WExpr
  | 0 => .par 0
  | 1 => .plus 0 1
  | 2 => .par 1
  | 3 => .plus 1 1
  | k + 4 => .par (k + 2)

def N1 : Names where
  par
    | 0 => some 0
    | 1 => none
    | 2 => some 1
    | 3 => none
    | k + 4 => some (k + 2)
  expr
    | 0 => 0
    | 1 => 2
    | p + 2 => p + 4

theorem wf1 : Wf E1 N1 := by
  constructor
  · intro e p h
    match e, h with
    | 0, h => cases h; exact ⟨rfl, fun _ => rfl⟩
    | 1, h => cases h
    | 2, h => cases h; exact ⟨rfl, fun _ => rfl⟩
    | 3, h => cases h
    | k + 4, h => cases h; exact ⟨rfl, fun _ => rfl⟩
  · intro p
    match p with
    | 0 => rfl
    | 1 => rfl
    | p + 2 => rfl

def runs (st : St) : List Call → St × Out
  | [] => (st, .ok)
  | c :: cs => match call E1 10 st c with
    | (st', .ok) => runs st' cs
    | r => r

/-- Variable 5 has width `P1` and size `P1`, variable 6 width `P1` and size `P1 + 1`. -/
def before : St :=
  (runs st0 [.setParent 1 0, .tieWidth 5 2, .tieSize 5 0 2, .tieWidth 6 2, .tieSize 6 0 3]).1

theorem before_tame : TameReach E1 before := by
  have b2 : ∃ p, Bare E1 p 2 := ⟨1, rfl, fun _ => rfl⟩
  exact .step (n := 10) (c := .tieSize 6 0 3) (.step (n := 10) (c := .tieWidth 6 2) (.step (n := 10) (c := .tieSize 5 0 2)
    (.step (n := 10) (c := .tieWidth 5 2) (.step (n := 10) (c := .setParent 1 0) (.fresh st0_fresh)
      ⟨rfl, by decide⟩ rfl) ⟨rfl, b2⟩ rfl) rfl rfl) ⟨rfl, b2⟩ rfl) rfl rfl

/-- Inlining variable `x` and then giving `P0` the value 8. -/
def after (x : Nat) : St × Out :=
  match moveVar E1 N1 before [0] 1 x with
  | (s, .ok) => setValue E1 10 s 0 8
  | r => r

def afterPort (x y : Nat) : St × Out :=
  match movePort E1 N1 before [0] 1 x y with
  | (s, .ok) => setValue E1 10 s 0 8
  | r => r

/-- The hypotheses of `width_partial` and `size_partial` are met, and the values are 8. -/
example : ∃ st1, moveVar E1 N1 before [0] 1 5 = (st1, .ok) ∧ before.widthTie 5 = some 2 ∧ before.sizeTie 5 0 = some 2 ∧
    N1.par 2 = some 1 ∧ before.parent 1 = some 0 ∧ (after 5).2 = .ok ∧ (after 5).1.width 5 = 8 ∧ (after 5).1.size 5 0 = 8 ∧
    (after 5).1.widthTie 5 = some (N1.expr 0) := by
  refine ⟨_, rfl, ?_, ?_, ?_, ?_, ?_, ?_, ?_, ?_⟩ <;> decide +kernel

/-- After the parent's parameter gets a new value, the dimension is written with the parameter of the
instance, which no longer exists. -/
theorem retied : ∃ st1 st2, moveVar E1 N1 before [0] 1 5 = (st1, .ok) ∧ st1.sizeTie 5 0 = some 0 ∧
    setValue E1 10 st1 0 8 = (st2, .ok) ∧ st2.sizeTie 5 0 = some 2 ∧ (E1 2).pars = [1] :=
  ⟨_, _, rfl, rfl, rfl, rfl, rfl⟩

/-- A dimension `P1 + 1` stays 2 when `P0` is given the value 8. -/
theorem stays : (after 6).2 = .ok ∧ (after 6).1.size 6 0 = 2 ∧ (after 6).1.val 0 = 8 := by
  refine ⟨?_, ?_, ?_⟩ <;> decide +kernel

/-- The variable in place of port 5 has width 1 when `P0` is 8. -/
theorem port_stays : (afterPort 5 9).2 = .ok ∧ (afterPort 5 9).1.width 9 = 1 ∧ (afterPort 5 9).1.val 0 = 8 := by
  refine ⟨?_, ?_, ?_⟩ <;> decide +kernel

theorem after_later (x : Nat) (h : (after x).2 = .ok) :
    ∃ st1, moveVar E1 N1 before [0] 1 x = (st1, .ok) ∧ Later E1 st1 (after x).1 := by
  unfold after at h ⊢
  cases hm : moveVar E1 N1 before [0] 1 x with
  | mk s o =>
    rw [hm] at h
    cases o with
    | ok =>
      refine ⟨s, rfl, ?_⟩
      dsimp only at h ⊢
      cases hs : setValue E1 10 s 0 8 with
      | mk t o =>
        rw [hs] at h
        dsimp only at h ⊢
        subst h
        obtain ⟨_, _, _, _, _, hp⟩ := moveVar_ok wf1 before_tame.ok.1 hm
        refine .step (.refl s) ?_ hs
        rw [hp]; rfl
    | throw => cases h
    | ub => cases h

theorem not_VarClaim : ¬ VarClaim := by
  intro hc
  obtain ⟨st1, h1, h2⟩ := after_later 6 stays.1
  have := (hc E1 N1 before [0] 1 6 st1 _ wf1 before_tame h1 h2).size 0 3 (by decide) rfl (by
    intro c hcm
    have : c = 1 := by simpa [E1, WExpr.plus] using hcm
    exact ⟨0, by simp, by rw [this]; rfl⟩)
  rw [stays.2.1] at this
  have hv : above E1 before (after 6).1.val 3 = some 9 := by decide +kernel
  rw [hv] at this
  cases this

theorem not_PortClaim : ¬ PortClaim := by
  intro hc
  obtain ⟨s, hs⟩ : ∃ s, movePort E1 N1 before [0] 1 5 9 = (s, .ok) := ⟨_, rfl⟩
  have := (hc E1 N1 before [0] 1 5 9 s s wf1 before_tame (by intro p hp; exact absurd (before_tame.ok.1.wtie p 9 hp) (by
      rintro ⟨e, he, -⟩
      have : before.widthTie 9 = none := rfl
      rw [this] at he; cases he))
    (by
      intro p i e hm
      have h1 := ((before_tame.ok.1.sreg p 9 i e).1 hm).1
      have : before.sizeTie 9 i = none := rfl
      rw [this] at h1; cases h1) (by decide) hs (.refl s)).tied 2 rfl (by
    intro c hcm
    have : c = 1 := by simpa [E1, WExpr.par] using hcm
    exact ⟨0, by simp, by rw [this]; rfl⟩)
  apply this
  have : s = (movePort E1 N1 before [0] 1 5 9).1 := by rw [hs]
  rw [this]
  rfl

end Kratos.ParamInline
