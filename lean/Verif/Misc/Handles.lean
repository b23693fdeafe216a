import Verif.Text.Tokens
import Verif.Text.Digits

/-!
# Hierarchical names

`Generator::handle_name` (`src/generator.cc:1314-1346`), `Var::handle_name` (`src/expr.cc:290-312`)
and `Stream::var_str` (`src/codegen.cc:170-175`), which prints a variable of another generator.

A generator is given by its path from the top.  Not modelled: the exception for an instance in a
loop without a label, and the handle names of concatenations and expressions (`Var::to_string` is an
arbitrary text).
-/

namespace Kratos.Hnd
open Kratos.Text (Str join printNat)

/-- An instance on the path: its name and, if it is in a generate loop, the label of the loop and the
turn. -/
structure Step where
  name : Str
  loop : Option (Str × Nat)
  deriving DecidableEq

abbrev Path := List Step

/-- What one generator adds to `values` (`src/generator.cc:1323-1338`). -/
def comps (s : Step) : List Str :=
  match s.loop with
  | none => [s.name]
  | some (l, k) => [l, s.name ++ ('[' :: printNat 10 k ++ [']'])]

/-- `Generator::handle_name` (`src/generator.cc:1314-1346`). -/
def genHandle (ignoreTop : Bool) (p : Path) : Str :=
  join ['.'] ((p.flatMap comps).drop (if ignoreTop then 1 else 0))

/-- `Var::handle_name(bool)` (`src/expr.cc:292-298`). -/
def varHandle (ignoreTop : Bool) (p : Path) (v : Str) : Str :=
  if genHandle ignoreTop p ≠ [] then genHandle ignoreTop p ++ '.' :: v else v

/-- `Var::handle_name(Generator *)` (`src/expr.cc:300-312`): remove the handle name of the scope and
a dot; `substr` throws beyond the end. -/
def relHandle (scope p : Path) (v : Str) : Res Str :=
  if ¬ (genHandle false scope).isPrefixOf (varHandle false p v) then .throw .var
  else if (varHandle false p v).length < (genHandle false scope).length + 1 then .throw .outOfRange
  else .ok ((varHandle false p v).drop ((genHandle false scope).length + 1))

/-- `Stream::var_str` (`src/codegen.cc:170-175`): a variable as printed in the text of a generator. -/
def varStr (cur p : Path) (v : Str) : Str := if p = cur then v else varHandle true p v

/-! ## Specification -/

/-- A legal identifier, as far as it matters here. -/
def Ident (s : Str) : Prop := s ≠ [] ∧ '.' ∉ s ∧ '[' ∉ s

/-- The hierarchical name of an instance in SystemVerilog (IEEE 1800-2017, 23.6): the turns of a
generate loop are scopes `label[k]`, with the instances in them. -/
def svName : Path → List (Str × Option Nat)
  | [] => []
  | s :: p =>
    match s.loop with
    | none => (s.name, none) :: svName p
    | some (l, k) => (l, some k) :: (s.name, none) :: svName p

/-- The text of a hierarchical name. -/
def render : List (Str × Option Nat) → Str
  | [] => []
  | [(n, none)] => n
  | [(n, some k)] => n ++ '[' :: printNat 10 k ++ [']']
  | (n, none) :: x :: l => n ++ '.' :: render (x :: l)
  | (n, some k) :: x :: l => n ++ '[' :: printNat 10 k ++ [']', '.'] ++ render (x :: l)

/-- What a user expects: the handle name of a generator is its hierarchical name. -/
def HandleClaim : Prop :=
  ∀ p : Path, p ≠ [] → (∀ s ∈ p, Ident s.name ∧ ∀ l k, s.loop = some (l, k) → Ident l) →
    genHandle false p = render (svName p)

/-- What a user expects: the name of a variable relative to a generator exists exactly for the
variables in it. -/
def RelativeClaim : Prop :=
  ∀ (scope p : Path) (v : Str), scope ≠ [] → p ≠ [] → Ident v →
    (∀ s ∈ scope ++ p, Ident s.name ∧ s.loop = none) →
    ((∃ r, relHandle scope p v = .ok r) ↔ scope <+: p)

/-- How SystemVerilog finds a hierarchical name of several parts used in an instance (23.8): the
innermost enclosing instance that contains an instance of the name of the first part. `D`: the
instances of the design, by the names on their paths. -/
def Resolves (D : List Str → Prop) (cur : List Str) : List Str → List Str → Prop
  | [], _ => False
  | c :: cs, tgt => ∃ u, u <+: cur ∧ D (u ++ [c]) ∧
      (∀ u', u' <+: cur → u.length < u'.length → ¬ D (u' ++ [c])) ∧ tgt = u ++ c :: cs

/-- What a user expects: a variable of another generator, printed in the text of a generator, denotes
that variable. -/
def ReferenceClaim : Prop :=
  ∀ (D : List Str → Prop) (top : Str) (cur q : List Str) (v : Str),
    D (top :: cur) → D (top :: q) → q ≠ [] → top :: q ≠ top :: cur →
    (∀ s ∈ top :: q, Ident s) → Ident v →
    ∃ parts, varStr ((top :: cur).map (⟨·, none⟩)) ((top :: q).map (⟨·, none⟩)) v
        = render ((parts ++ [v]).map (·, none)) ∧ Resolves D (top :: cur) parts (top :: q)

/-! ## Theorems -/

/-- A path without loops. -/
def plain (ns : List Str) : Path := ns.map (⟨·, none⟩)

theorem comps_plain (ns : List Str) : (plain ns).flatMap comps = ns := by
  induction ns with
  | nil => rfl
  | cons n ns ih => simpa [plain, comps] using ih

theorem genHandle_plain (ns : List Str) : genHandle false (plain ns) = join ['.'] ns := by
  simp [genHandle, comps_plain]

theorem render_none (ns : List Str) : render (ns.map (·, none)) = join ['.'] ns := by
  induction ns with
  | nil => rfl
  | cons n ns ih =>
    cases ns with
    | nil => rfl
    | cons m ns =>
      simp only [List.map_cons, render, join] at ih ⊢
      rw [ih]
      simp

theorem svName_plain (ns : List Str) : svName (plain ns) = ns.map (·, none) := by
  induction ns with
  | nil => rfl
  | cons n ns ih => simpa [plain, svName] using ih

theorem eq_plain {p : Path} (h : ∀ s ∈ p, s.loop = none) : p = plain (p.map (·.name)) := by
  induction p with
  | nil => rfl
  | cons s p ih =>
    have h1 := h s (by simp)
    have h2 := ih fun x hx => h x (List.mem_cons_of_mem _ hx)
    simp only [plain, List.map_cons, List.map_map] at h2 ⊢
    rw [← h2]
    obtain ⟨n, l⟩ := s
    have h1 : l = none := h1
    rw [h1]

/-- C84: the handle name of a generator that is not in a generate loop is its hierarchical name in
SystemVerilog. -/
theorem handle_partial {p : Path} (h : ∀ s ∈ p, s.loop = none) :
    genHandle false p = render (svName p) := by
  rw [eq_plain h, genHandle_plain, svName_plain, render_none]

example : genHandle false [⟨"top".toList, none⟩, ⟨"a".toList, none⟩, ⟨"b".toList, none⟩] = "top.a.b".toList := by
  decide +kernel

/-- C84: in a generate loop the index is put on the instance instead of the loop. -/
theorem loop_wrong :
    genHandle false [⟨"top".toList, none⟩, ⟨"inst".toList, some ("blk".toList, 2)⟩] = "top.blk.inst[2]".toList ∧
    render (svName [⟨"top".toList, none⟩, ⟨"inst".toList, some ("blk".toList, 2)⟩]) = "top.blk[2].inst".toList := by
  decide +kernel

theorem not_HandleClaim : ¬ HandleClaim := by
  intro h
  have := h [⟨"top".toList, none⟩, ⟨"inst".toList, some ("blk".toList, 2)⟩] (by simp) (by
    intro s hs
    simp only [List.mem_cons, List.not_mem_nil, or_false] at hs
    rcases hs with rfl | rfl
    · exact ⟨by unfold Ident; decide, by intro l k h; cases h⟩
    · exact ⟨by unfold Ident; decide, by intro l k h; cases h; unfold Ident; decide⟩)
  rw [loop_wrong.1, loop_wrong.2] at this
  revert this
  decide

theorem join_cons_cons (n m : Str) (ns : List Str) :
    join ['.'] (n :: m :: ns) = n ++ '.' :: join ['.'] (m :: ns) := by
  simp [join]

/-- A text with a dot splits at the first one in one way. -/
theorem dot_split {a b : Str} (ha : '.' ∉ a) (hb : '.' ∉ b) : ∀ {x y : Str},
    a ++ '.' :: x = b ++ '.' :: y → a = b ∧ x = y := by
  induction a generalizing b with
  | nil =>
    intro x y h
    cases b with
    | nil => simpa using h
    | cons c b =>
      simp at h
      rw [← h.1] at hb
      exact absurd List.mem_cons_self hb
  | cons c a ih =>
    intro x y h
    cases b with
    | nil => simp at h; exact absurd (by simp [h.1]) ha
    | cons d b =>
      simp only [List.cons_append, List.cons.injEq] at h
      simp only [List.mem_cons, not_or] at ha hb
      obtain ⟨e1, e2⟩ := ih ha.2 hb.2 h.2
      exact ⟨by rw [h.1, e1], e2⟩

theorem join_inj : ∀ {ns ms : List Str}, ns ≠ [] → ms ≠ [] → (∀ n ∈ ns, '.' ∉ n) →
    (∀ n ∈ ms, '.' ∉ n) → join ['.'] ns = join ['.'] ms → ns = ms
  | [], _, h, _, _, _, _ => absurd rfl h
  | _, [], _, h, _, _, _ => absurd rfl h
  | [n], [m], _, _, _, _, h => by simpa [join] using h
  | [n], m :: m' :: ms, _, _, hn, _, h => by
    rw [join_cons_cons] at h
    exact absurd (show '.' ∈ n by rw [show n = _ from h]; simp) (hn n (by simp))
  | n :: n' :: ns, [m], _, _, _, hm, h => by
    rw [join_cons_cons] at h
    exact absurd (show '.' ∈ m by rw [show m = _ from h.symm]; simp) (hm m (by simp))
  | n :: n' :: ns, m :: m' :: ms, _, _, hn, hm, h => by
    rw [join_cons_cons, join_cons_cons] at h
    obtain ⟨e1, e2⟩ := dot_split (hn n (by simp)) (hm m (by simp)) h
    rw [e1, join_inj (by simp) (by simp) (fun x hx => hn x (List.mem_cons_of_mem _ hx))
      (fun x hx => hm x (List.mem_cons_of_mem _ hx)) e2]

/-- C84: two generators, or two variables, outside of generate loops never share a handle name: the
names on the paths are the same. -/
theorem handle_unique {ns ms : List Str} {v w : Str} (hn : ns ≠ []) (hm : ms ≠ [])
    (h1 : ∀ n ∈ ns ++ [v], Ident n) (h2 : ∀ n ∈ ms ++ [w], Ident n) :
    (genHandle false (plain ns) = genHandle false (plain ms) → ns = ms) ∧
    (varHandle false (plain ns) v = varHandle false (plain ms) w → ns = ms ∧ v = w) := by
  have hd : ∀ {l : List Str}, (∀ n ∈ l, Ident n) → ∀ n ∈ l, '.' ∉ n := fun h n hn => (h n hn).2.1
  have hne : ∀ {l : List Str} {x : Str}, l ≠ [] → (∀ n ∈ l ++ [x], Ident n) → join ['.'] l ≠ [] := by
    intro l x hl h
    cases l with
    | nil => exact absurd rfl hl
    | cons a l =>
      have := (h a (by simp)).1
      cases l with
      | nil => simpa [join] using this
      | cons b l => rw [join_cons_cons]; simp
  constructor
  · intro h
    rw [genHandle_plain, genHandle_plain] at h
    exact join_inj hn hm (fun n h' => hd h1 n (List.mem_append_left _ h'))
      (fun n h' => hd h2 n (List.mem_append_left _ h')) h
  · intro h
    simp only [varHandle, genHandle_plain, ne_eq, hne hn h1, hne hm h2, not_false_eq_true, if_true] at h
    have e : ∀ (l : List Str) (x : Str), l ≠ [] → join ['.'] l ++ '.' :: x = join ['.'] (l ++ [x]) := by
      intro l x hl
      rw [Text.join_snoc _ _ _ hl]; simp
    rw [e _ _ hn, e _ _ hm] at h
    have := join_inj (by simp) (by simp) (hd h1) (hd h2) h
    have := List.append_inj' this rfl
    exact ⟨this.1, by simpa using this.2⟩

example : genHandle false (plain ["top".toList, "ab".toList]) ≠
    genHandle false (plain ["top".toList, "a".toList, "b".toList]) := by
  intro h
  have := (handle_unique (v := "v".toList) (w := "v".toList) (by decide) (by decide)
    (by unfold Ident; decide) (by unfold Ident; decide)).1 h
  revert this
  decide

/-! ### Relative names -/

theorem varHandle_plain {ns : List Str} (v : Str) (hn : ns ≠ []) (h : ∀ n ∈ ns, Ident n) :
    varHandle false (plain ns) v = join ['.'] (ns ++ [v]) := by
  have : join ['.'] ns ≠ [] := by
    cases ns with
    | nil => exact absurd rfl hn
    | cons a l =>
      have := (h a (by simp)).1
      cases l with
      | nil => simpa [join] using this
      | cons b l => rw [join_cons_cons]; simp
  simp only [varHandle, genHandle_plain, ne_eq, this, not_false_eq_true, if_true]
  rw [Text.join_snoc _ _ _ hn]
  simp

theorem join_append : ∀ (ns ms : List Str), ns ≠ [] → ms ≠ [] →
    join ['.'] (ns ++ ms) = join ['.'] ns ++ '.' :: join ['.'] ms
  | [], _, h, _ => absurd rfl h
  | [n], ms, _, hm => by
    cases ms with
    | nil => exact absurd rfl hm
    | cons m ms => exact join_cons_cons n m ms
  | n :: n' :: ns, ms, _, hm => by
    have := join_append (n' :: ns) ms (by simp) hm
    simp only [List.cons_append] at this ⊢
    rw [join_cons_cons, join_cons_cons, this]
    simp

/-- C84: a variable in a generator (or in one below it) has a name relative to it: the rest of the
path. -/
theorem relative_partial {ns ms : List Str} {v : Str} (hn : ns ≠ []) (h : ∀ n ∈ ns ++ ms, Ident n) :
    relHandle (plain ns) (plain (ns ++ ms)) v = .ok (render ((ms ++ [v]).map (·, none))) := by
  have e : varHandle false (plain (ns ++ ms)) v = join ['.'] ns ++ '.' :: join ['.'] (ms ++ [v]) := by
    rw [varHandle_plain v (by simp [hn]) h, List.append_assoc, join_append ns _ hn (by simp)]
  simp only [relHandle, e, genHandle_plain]
  rw [if_neg (by simp [List.isPrefixOf_iff_prefix]), if_neg (by simp), render_none]
  simp [List.drop_append]

/-- C84: when a variable outside of the generator gets a relative name, its path (or its own name)
continues a name of the path of the generator; otherwise it is refused. -/
theorem relative_refused {ns ms : List Str} {v : Str} (hn : ns ≠ []) (hm : ms ≠ [])
    (h1 : ∀ n ∈ ns, Ident n) (h2 : ∀ n ∈ ms ++ [v], Ident n) (hp : ¬ ns <+: ms) :
    relHandle (plain ns) (plain ms) v = .throw .var ∨
    relHandle (plain ns) (plain ms) v = .throw .outOfRange ∨
    ∃ u n e rest, ns = u ++ [n] ∧ ms ++ [v] = u ++ (n ++ e) :: rest ∧ e ≠ [] := by
  have ev : varHandle false (plain ms) v = join ['.'] (ms ++ [v]) :=
    varHandle_plain v hm fun n h => h2 n (List.mem_append_left _ h)
  -- what a textual prefix means
  have key : ∀ (ns l : List Str), ns ≠ [] → l ≠ [] → (∀ n ∈ ns, '.' ∉ n) → (∀ n ∈ l, '.' ∉ n) →
      join ['.'] ns <+: join ['.'] l →
      ns <+: l ∨ ∃ u n e rest, ns = u ++ [n] ∧ l = u ++ (n ++ e) :: rest ∧ e ≠ [] := by
    intro ns
    induction ns with
    | nil => intro l h; exact absurd rfl h
    | cons n ns ih =>
      intro l _ hl hn' hl' hpre
      cases l with
      | nil => exact absurd rfl hl
      | cons m l =>
        have hnd := hn' n (by simp)
        have hmd := hl' m (by simp)
        cases ns with
        | nil =>
          -- the last name of the scope
          have hj : join ['.'] [n] = n := rfl
          rw [hj] at hpre
          have hpm : n <+: m := by
            obtain ⟨t, ht⟩ := hpre
            cases l with
            | nil => exact ⟨t, by simpa [join] using ht⟩
            | cons m' l =>
              rw [join_cons_cons] at ht
              rcases List.append_eq_append_iff.mp ht with ⟨a, h1, h2⟩ | ⟨a, h1, h2⟩
              · exact ⟨a, h1.symm⟩
              · cases a with
                | nil => exact ⟨[], by simpa using h1⟩
                | cons c a =>
                  simp only [List.cons_append, List.cons.injEq] at h2
                  exact absurd (by rw [h1, ← h2.1]; simp) hnd
          obtain ⟨e, he⟩ := hpm
          cases e with
          | nil =>
            left
            rw [List.append_nil] at he
            subst he
            exact ⟨l, rfl⟩
          | cons c e => exact Or.inr ⟨[], n, c :: e, l, rfl, by rw [he]; rfl, by simp⟩
        | cons n' ns =>
          rw [join_cons_cons] at hpre
          obtain ⟨t, ht⟩ := hpre
          rw [List.append_assoc, List.cons_append] at ht
          cases l with
          | nil =>
            have : join ['.'] [m] = m := rfl
            rw [this] at ht
            exact absurd (by rw [← ht]; simp) hmd
          | cons m' l =>
            rw [join_cons_cons] at ht
            obtain ⟨e1, e2⟩ := dot_split hnd hmd ht
            subst e1
            rcases ih (m' :: l) (by simp) (by simp) (fun x hx => hn' x (List.mem_cons_of_mem _ hx))
              (fun x hx => hl' x (List.mem_cons_of_mem _ hx)) ⟨t, e2⟩ with h | ⟨u, a, e, rest, h3, h4, h5⟩
            · exact Or.inl ((List.prefix_cons_inj n).mpr h)
            · exact Or.inr ⟨n :: u, a, e, rest, by rw [h3]; rfl, by rw [h4]; rfl, h5⟩
  simp only [relHandle, ev, genHandle_plain]
  by_cases hpre : join ['.'] ns <+: join ['.'] (ms ++ [v])
  · right
    rcases key ns (ms ++ [v]) hn (by simp) (fun n h => (h1 n h).2.1) (fun n h => (h2 n h).2.1) hpre with h | h
    · -- the scope is the path of the variable, with its name
      left
      rcases List.prefix_concat_iff.mp h with h | h
      · rw [if_neg (by simp [List.isPrefixOf_iff_prefix, h]), if_pos (by rw [h]; omega)]
      · exact absurd h hp
    · exact Or.inr h
  · left
    rw [if_pos (by simpa [List.isPrefixOf_iff_prefix] using hpre)]

/-- C84: a variable of the instance `ab` has a relative name in its sibling `a`, and a wrong one. -/
theorem sibling_wrong : relHandle (plain ["top".toList, "a".toList]) (plain ["top".toList, "ab".toList])
    "x".toList = .ok ".x".toList := by
  decide +kernel

theorem not_RelativeClaim : ¬ RelativeClaim := by
  intro h
  have := (h (plain ["top".toList, "a".toList]) (plain ["top".toList, "ab".toList]) "x".toList (by decide)
    (by decide) (by unfold Ident; decide) (by
      intro s hs
      simp [plain] at hs
      rcases hs with rfl | rfl | rfl | rfl <;> exact ⟨by unfold Ident; decide, rfl⟩)).mp
    ⟨_, sibling_wrong⟩
  revert this
  decide

/-! ### References to other generators -/

theorem varStr_plain {top : Str} {cur q : List Str} {v : Str} (hq : q ≠ []) (hne : top :: q ≠ top :: cur)
    (h : ∀ s ∈ q, Ident s) :
    varStr (plain (top :: cur)) (plain (top :: q)) v = render ((q ++ [v]).map (·, none)) := by
  have hp : plain (top :: q) ≠ plain (top :: cur) := by
    intro e
    apply hne
    have := congrArg (List.map Step.name) e
    simpa [plain, List.map_map, Function.comp_def] using this
  have hg : genHandle true (plain (top :: q)) = genHandle false (plain q) := by
    simp [genHandle, comps_plain]
  have hv : varHandle true (plain (top :: q)) v = varHandle false (plain q) v := by
    simp only [varHandle, hg]
  rw [varStr, if_neg hp, hv, varHandle_plain v hq h, render_none]

/-- C84: a variable of another generator is printed so that it denotes that variable, if no
generator around the reference, except the top, has a child of the name of the first instance on the
path. -/
theorem reference_partial {D : List Str → Prop} {top : Str} {cur q : List Str} {c : Str} {cs : List Str}
    {v : Str} (hc : q = c :: cs) (hD : D [top, c]) (hne : top :: q ≠ top :: cur) (h : ∀ s ∈ q, Ident s)
    (hs : ∀ u, u <+: cur → u ≠ [] → ¬ D (top :: u ++ [c])) :
    varStr (plain (top :: cur)) (plain (top :: q)) v = render ((q ++ [v]).map (·, none)) ∧
    ∀ tgt, Resolves D (top :: cur) q tgt ↔ tgt = top :: q := by
  subst hc
  refine ⟨varStr_plain (by simp) hne h, fun tgt => ⟨?_, ?_⟩⟩
  · rintro ⟨u, hu, hDu, hmax, rfl⟩
    cases u with
    | nil => exact absurd hD (hmax [top] (by simp) (by simp))
    | cons t u =>
      rw [List.cons_prefix_cons] at hu
      obtain ⟨rfl, hu⟩ := hu
      cases u with
      | nil => rfl
      | cons x u => exact absurd hDu (hs _ hu (by simp))
  · rintro rfl
    refine ⟨[top], by simp, hD, ?_, rfl⟩
    intro u' hu' hlen
    cases u' with
    | nil => simp at hlen
    | cons t u' =>
      rw [List.cons_prefix_cons] at hu'
      obtain ⟨rfl, hu'⟩ := hu'
      exact hs u' hu' (by rintro rfl; simp at hlen)

example : varStr (plain ["top".toList, "b".toList]) (plain ["top".toList, "a".toList]) "x".toList = "a.x".toList ∧
    ∀ tgt, Resolves (fun p => p = ["top".toList] ∨ p = ["top".toList, "a".toList] ∨ p = ["top".toList, "b".toList])
      ["top".toList, "b".toList] ["a".toList] tgt ↔ tgt = ["top".toList, "a".toList] := by
  refine ⟨by decide +kernel, (reference_partial (v := "x".toList) rfl (by simp) (by decide)
    (by unfold Ident; decide) ?_).2⟩
  intro u hu hne
  cases u with
  | nil => exact absurd rfl hne
  | cons x u =>
    rw [List.cons_prefix_cons] at hu
    obtain ⟨rfl, hu⟩ := hu
    have := List.prefix_nil.mp hu
    subst this
    decide

/-- C84: a variable of `top.a` printed in `top.b`, which has a child `a` itself, denotes a variable of
`top.b.a`. -/
theorem reference_wrong (D : List Str → Prop) {top a b : Str} (hD : D [top, b, a])
    (ha : Ident a) (hab : a ≠ b) (v : Str) :
    varStr (plain [top, b]) (plain [top, a]) v = render ([a, v].map (·, none)) ∧
    Resolves D [top, b] [a] [top, b, a] ∧ ¬ Resolves D [top, b] [a] [top, a] := by
  refine ⟨varStr_plain (by simp) (by simpa using hab) (by simpa using ha), ?_, ?_⟩
  · refine ⟨[top, b], List.prefix_refl _, hD, ?_, rfl⟩
    intro u' hu' hlen
    have := hu'.length_le
    simp at hlen this
    omega
  · rintro ⟨u, hu, hDu, hmax, e⟩
    have hu1 : u = [top] := by
      have : u ++ [a] = [top] ++ [a] := e.symm
      exact (List.append_inj' this rfl).1
    subst hu1
    exact hmax [top, b] (List.prefix_refl _) (by simp) hD

theorem not_ReferenceClaim : ¬ ReferenceClaim := by
  intro h
  obtain ⟨parts, h1, h2⟩ := h (fun p => p ∈ [["t".toList], ["t".toList, "a".toList], ["t".toList, "b".toList],
      ["t".toList, "b".toList, "a".toList]]) "t".toList ["b".toList] ["a".toList] "x".toList (by simp) (by simp) (by simp)
    (by decide) (by unfold Ident; decide) (by unfold Ident; decide)
  have hw := reference_wrong (fun p => p ∈ [["t".toList], ["t".toList, "a".toList], ["t".toList, "b".toList],
      ["t".toList, "b".toList, "a".toList]]) (top := "t".toList) (a := "a".toList) (b := "b".toList) (by simp)
      (by unfold Ident; decide) (by decide) "x".toList
  have e : render ((parts ++ ["x".toList]).map (·, none)) = render (["a".toList, "x".toList].map (·, none)) :=
    h1.symm.trans hw.1
  rw [render_none, render_none] at e
  have hsub : ∀ n ∈ parts, n ∈ ["t".toList, "a".toList] := by
    cases parts with
    | nil => exact absurd h2 id
    | cons c cs =>
      obtain ⟨u, _, _, _, e⟩ := h2
      intro n hn
      rw [e]
      exact List.mem_append_right _ hn
  have hp := join_inj (by simp) (by simp) (by
    intro n hn
    rcases List.mem_append.mp hn with hn | hn
    · have := hsub n hn
      simp at this
      rcases this with rfl | rfl <;> decide
    · simp at hn; subst hn; decide) (by decide) e
  have hp : parts = ["a".toList] := (List.append_inj' (t₁ := ["x".toList]) (t₂ := ["x".toList]) hp rfl).1
  subst hp
  exact hw.2.2 h2

/-- C84: a variable of the top printed in another generator is a plain name: it denotes a variable of
that generator, or nothing. -/
theorem top_wrong {top : Str} {cur : List Str} (h : cur ≠ []) (v : Str) :
    varStr (plain (top :: cur)) (plain [top]) v = v := by
  have hp : plain [top] ≠ plain (top :: cur) := by
    intro e
    have := congrArg List.length e
    simp [plain] at this
    exact h this
  simp [varStr, hp, varHandle, genHandle, plain, comps, join]

end Kratos.Hnd
