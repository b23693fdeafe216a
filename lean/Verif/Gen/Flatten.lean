import Verif.Slice.Props
import Verif.Text.Digits

/-!
# C94 The flattened wrapper

`create_wrapper_flatten` puts a generator into a new one whose ports are scalars: a scalar port is
copied, an array port becomes one port per element.  Not modelled: parameters (each becomes a 32-bit
parameter of the wrapper that the inner one is linked to), attributes, struct and enum types of the
ports.
-/

namespace Kratos.Flatten

open Slice Text

abbrev Str := List Char

inductive Dir where
  | inp | out | inout
  deriving DecidableEq, Repr

/-- A port: name, direction, `var_width`/`size`/`explicit_array`, `port_type` (0 is `Data`),
`is_signed`; src/port.hh. -/
structure Decl where
  name : Str
  dir : Dir
  root : Root
  type : Nat
  signed : Bool
  deriving DecidableEq, Repr

/-- One assignment of the wrapper between bits `low..high` of a port of the instance and a whole port
of the wrapper; `inward` when the instance's port is on the left. -/
structure Conn where
  port : Str
  low : Nat
  high : Nat
  outer : Str
  inward : Bool
  deriving DecidableEq, Repr

structure Wrapper where
  ports : List Decl
  conns : List Conn
  deriving DecidableEq, Repr

/-- `Generator::port`, src/generator.cc:139-145, with `add_port_name`, 231-236.  The wrapper has no
other variables. -/
def addPort (ports : List Decl) (d : Decl) : Res (List Decl) :=
  if ports.any (·.name == d.name) then .throw .var else .ok (ports ++ [d])

/-- src/codegen.cc:1269: `{0}_{1}` repeated. -/
def elemName (n : Str) (t : List Nat) : Str := t.foldl (fun n s => n ++ '_' :: printNat 10 s) n

/-- One element of an array port, src/codegen.cc:1267-1282. -/
def element (p : Decl) (g : Wrapper) (t : List Nat) : Res Wrapper :=
  let name := elemName p.name t
  (selects p.root (rootInfo p.root) (t.map fun i => (i, i))).bind fun s =>
    if s.size ≠ [1] then .throw .user
    else (addPort g.ports ⟨name, p.dir, ⟨s.vw, [1], false⟩, 0, false⟩).bind fun ps =>
      .ok ⟨ps, g.conns ++ [⟨p.name, s.low, s.high, name, decide (p.dir = .inp)⟩]⟩

/-- The elements in turn, src/codegen.cc:1267. -/
def elements (p : Decl) : Wrapper → List (List Nat) → Res Wrapper
  | g, [] => .ok g
  | g, t :: ts => (element p g t).bind fun g' => elements p g' ts

/-- One port, src/codegen.cc:1253-1283; a scalar is copied with `Generator::port(const Port &)`,
src/generator.cc:147-157. -/
def onePort (g : Wrapper) (p : Decl) : Res Wrapper :=
  if p.root.size = [1] then
    (addPort g.ports p).bind fun ps =>
      .ok ⟨ps, g.conns ++ [⟨p.name, 0, width (rootInfo p.root) - 1, p.name, decide (p.dir = .inp)⟩]⟩
  else elements p g (flatten p.root)

/-- `create_wrapper_flatten`, src/codegen.cc:1251-1285: the ports in the order of `get_port_names`. -/
def wrap : Wrapper → List Decl → Res Wrapper
  | g, [] => .ok g
  | g, p :: ps => (onePort g p).bind fun g' => wrap g' ps

def wrapper (ps : List Decl) : Res Wrapper := wrap ⟨[], []⟩ ps

/-! ## Specification -/

/-- Position of an element of a packed array, in elements. -/
def pos : List Nat → List Nat → Nat
  | i :: t, _ :: ds => i * prod ds + pos t ds
  | _, _ => 0

/-- `_i_j…` -/
def suffix : List Nat → Str
  | [] => []
  | i :: t => '_' :: (printNat 10 i ++ suffix t)

/-- The ports the wrapper has for one port of the instance. -/
def portsFor (p : Decl) : List Decl :=
  if p.root.size = [1] then [p]
  else (rowMajor p.root.size).map fun t => ⟨p.name ++ suffix t, p.dir, ⟨p.root.w, [1], false⟩, 0, false⟩

/-- … and how they are connected. -/
def connsFor (p : Decl) : List Conn :=
  if p.root.size = [1] then [⟨p.name, 0, p.root.w - 1, p.name, decide (p.dir = .inp)⟩]
  else (rowMajor p.root.size).map fun t =>
    ⟨p.name, pos t p.root.size * p.root.w, pos t p.root.size * p.root.w + p.root.w - 1, p.name ++ suffix t,
      decide (p.dir = .inp)⟩

/-- Values: bit `k` of a port of the instance and of the wrapper.  Every assignment holds. -/
def Settled (g : Wrapper) (inner outer : Str → Nat → Bool) : Prop :=
  ∀ c ∈ g.conns, ∀ k, k ≤ c.high - c.low → inner c.port (c.low + k) = outer c.outer k

/-- The claim: there is a wrapper; each element of each port is one scalar port of the wrapper of the
same direction, width, type and sign, carrying the bits of that element, and inputs and outputs are
driven by the right side (an inout port by both). -/
def FlattenClaim : Prop := ∀ ps : List Decl, (∀ p ∈ ps, p.root.Ok) → (ps.map (·.name)).Nodup →
  ∃ g, wrapper ps = .ok g ∧ (g.ports.map (·.name)).Nodup ∧
    (∀ p ∈ ps, p.root.size ≠ [1] → ∀ t, Below t p.root.size →
      ∃ d ∈ g.ports, d.name = p.name ++ suffix t ∧ d.dir = p.dir ∧ d.root.w = p.root.w ∧ d.root.size = [1] ∧
        d.type = p.type ∧ d.signed = p.signed) ∧
    (∀ d ∈ g.ports, d.root.size = [1] ∧ d.root.explicit = false) ∧
    (∀ c ∈ g.conns, ∀ p ∈ ps, p.name = c.port → p.dir = .inout → ∃ c' ∈ g.conns, c'.port = c.port ∧ c'.inward = !c.inward)

/-! ## Lemmas -/

theorem elemName_eq : ∀ (t : List Nat) (n : Str), elemName n t = n ++ suffix t
  | [], n => by simp [elemName, suffix]
  | i :: t, n => by
      have := elemName_eq t (n ++ '_' :: printNat 10 i)
      simp only [elemName, List.foldl_cons] at this ⊢
      rw [this]
      simp [suffix]

theorem sels_tuple : ∀ (t ds : List Nat) (g : Region), g.dims = ds → Below t ds →
    g.sels (t.map fun i => (i, i)) = some ⟨g.off + pos t ds * g.bits, [], g.bits⟩ ∧
      NoWideRange g (t.map fun i => (i, i))
  | [], [], g, hd, _ => by
      obtain ⟨o, d, b⟩ := g
      simp only at hd
      subst hd
      simp [Region.sels, pos, NoWideRange]
  | i :: t, d :: ds, g, hd, hb => by
      have hsel : g.sel i i = some ⟨g.off + i * (prod ds * g.bits), ds, g.bits⟩ := by
        simp [Region.sel, hd, hb.1]
      obtain ⟨h1, h2⟩ := sels_tuple t ds ⟨g.off + i * (prod ds * g.bits), ds, g.bits⟩ rfl hb.2
      constructor
      · simp only [List.map_cons, Region.sels, hsel, h1]
        simp only [pos, Nat.add_mul, Nat.mul_assoc, Nat.add_assoc]
      · simp only [List.map_cons, NoWideRange]
        refine ⟨fun h => absurd rfl h, ?_⟩
        intro g' hg'
        rw [hsel] at hg'
        cases hg'
        exact h2
  | [], _ :: _, _, _, hb => by cases hb
  | _ :: _, [], _, _, hb => by cases hb

theorem select_tuple {r : Root} (ok : r.Ok) (harr : r.size ≠ [1]) {t : List Nat} (hb : Below t r.size) :
    ∃ s, selects r (rootInfo r) (t.map fun i => (i, i)) = .ok s ∧ s.size = [1] ∧ s.vw = r.w ∧
      s.low = pos t r.size * r.w ∧ s.high = pos t r.size * r.w + r.w - 1 := by
  have hd : r.region.dims = r.size := by
    unfold Root.region; dsimp only; rw [if_neg (fun h => harr h.1)]
  obtain ⟨h1, h2⟩ := sels_tuple t r.size r.region hd hb
  obtain ⟨s, hs, R⟩ := rel_chain ok _ _ _ _ (rel_root ok) h2 h1
  have hl := R.low
  have hh := R.high
  have hv := R.vw
  have hz := R.shape
  simp only [Root.region, Region.width, prod, List.foldr_nil, Nat.one_mul, Nat.zero_add] at hl hh hv
  exact ⟨s, hs, by simpa using hz, hv, hl, hh⟩

theorem addPort_ok {ports : List Decl} {d : Decl} : ∀ {ps}, addPort ports d = .ok ps ↔
    d.name ∉ ports.map (·.name) ∧ ps = ports ++ [d] := by
  intro ps
  unfold addPort
  split
  · rename_i h
    simp only [List.any_eq_true, beq_iff_eq] at h
    obtain ⟨x, hx, he⟩ := h
    constructor
    · intro h; cases h
    · rintro ⟨hn, _⟩
      refine absurd ?_ hn
      have := List.mem_map_of_mem (f := fun x : Decl => x.name) hx
      rw [he] at this
      exact this
  · rename_i h
    simp only [List.any_eq_true, beq_iff_eq, not_exists, not_and] at h
    simp only [Res.ok.injEq]
    constructor
    · rintro rfl
      refine ⟨?_, rfl⟩
      intro hm
      rw [List.mem_map] at hm
      obtain ⟨x, hx, he⟩ := hm
      exact h x hx he
    · rintro ⟨_, rfl⟩
      rfl

theorem addPort_throw {ports : List Decl} {d : Decl} (h : d.name ∈ ports.map (·.name)) :
    addPort ports d = .throw .var := by
  unfold addPort
  rw [if_pos]
  rw [List.mem_map] at h
  obtain ⟨x, hx, he⟩ := h
  simp only [List.any_eq_true, beq_iff_eq]
  exact ⟨x, hx, he⟩

/-- The ports and connections of one element. -/
def elemPort (p : Decl) (t : List Nat) : Decl := ⟨p.name ++ suffix t, p.dir, ⟨p.root.w, [1], false⟩, 0, false⟩
def elemConn (p : Decl) (t : List Nat) : Conn :=
  ⟨p.name, pos t p.root.size * p.root.w, pos t p.root.size * p.root.w + p.root.w - 1, p.name ++ suffix t,
    decide (p.dir = .inp)⟩

theorem element_eq {p : Decl} (ok : p.root.Ok) (harr : p.root.size ≠ [1]) {t : List Nat}
    (hb : Below t p.root.size) (g : Wrapper) :
    element p g t = (addPort g.ports (elemPort p t)).bind fun ps => .ok ⟨ps, g.conns ++ [elemConn p t]⟩ := by
  obtain ⟨s, hs, hz, hv, hl, hh⟩ := select_tuple ok harr hb
  simp only [element, hs, Res.ok_bind, hz, ne_eq, not_true_eq_false, if_false, elemPort, elemConn, elemName_eq, hv, hl, hh]

/-- Adding a list of ports with their connections. -/
def addAll : Wrapper → List (Decl × Conn) → Res Wrapper
  | g, [] => .ok g
  | g, (d, c) :: xs => (addPort g.ports d).bind fun ps => addAll ⟨ps, g.conns ++ [c]⟩ xs

theorem addAll_append : ∀ (xs ys : List (Decl × Conn)) (g : Wrapper),
    addAll g (xs ++ ys) = (addAll g xs).bind fun g' => addAll g' ys
  | [], _, _ => rfl
  | (d, c) :: xs, ys, g => by
      simp only [List.cons_append, addAll]
      cases addPort g.ports d with
      | ok ps => simp only [Res.ok_bind]; exact addAll_append xs ys _
      | throw e => rfl
      | ub => rfl

theorem addAll_ok : ∀ (xs : List (Decl × Conn)) (g : Wrapper), (g.ports.map (·.name)).Nodup →
    (((g.ports ++ xs.map (·.1)).map (·.name)).Nodup →
      addAll g xs = .ok ⟨g.ports ++ xs.map (·.1), g.conns ++ xs.map (·.2)⟩) ∧
    (¬ ((g.ports ++ xs.map (·.1)).map (·.name)).Nodup → addAll g xs = .throw .var)
  | [], g, hn => by
      constructor
      · intro _; simp [addAll]
      · intro h; exact absurd (by simpa using hn) h
  | (d, c) :: xs, g, hn => by
      by_cases hd : d.name ∈ g.ports.map (·.name)
      · constructor
        · intro h
          simp only [List.map_append, List.map_cons] at h
          rw [List.nodup_append] at h
          exact absurd rfl (h.2.2 d.name hd d.name (by simp))
        · intro _
          simp only [addAll, addPort_throw hd, Res.throw_bind]
      · have ha : addPort g.ports d = .ok (g.ports ++ [d]) := addPort_ok.2 ⟨hd, rfl⟩
        have hn' : (((⟨g.ports ++ [d], g.conns ++ [c]⟩ : Wrapper).ports).map (·.name)).Nodup := by
          simp only [List.map_append, List.map_cons, List.map_nil]
          rw [List.nodup_append]
          refine ⟨hn, by simp, ?_⟩
          intro a haa b hbb he
          simp only [List.mem_singleton] at hbb
          subst hbb
          rw [he] at haa
          exact hd haa
        have ih := addAll_ok xs ⟨g.ports ++ [d], g.conns ++ [c]⟩ hn'
        have e : g.ports ++ ((d, c) :: xs).map (·.1) = (g.ports ++ [d]) ++ xs.map (·.1) := by simp
        have e2 : g.conns ++ ((d, c) :: xs).map (·.2) = (g.conns ++ [c]) ++ xs.map (·.2) := by simp
        rw [e, e2]
        simp only [addAll, ha, Res.ok_bind]
        exact ih

/-- The list of additions for one port. -/
def adds (p : Decl) : List (Decl × Conn) :=
  if p.root.size = [1] then [(p, ⟨p.name, 0, p.root.w - 1, p.name, decide (p.dir = .inp)⟩)]
  else (rowMajor p.root.size).map fun t => (elemPort p t, elemConn p t)

theorem elements_eq {p : Decl} (ok : p.root.Ok) (harr : p.root.size ≠ [1]) : ∀ (ts : List (List Nat)),
    (∀ t ∈ ts, Below t p.root.size) → ∀ g : Wrapper,
    elements p g ts = addAll g (ts.map fun t => (elemPort p t, elemConn p t))
  | [], _, g => rfl
  | t :: ts, h, g => by
      simp only [elements, List.map_cons, addAll, element_eq ok harr (h t (by simp))]
      cases addPort g.ports (elemPort p t) with
      | ok ps => simp only [Res.ok_bind]; exact elements_eq ok harr ts (fun u hu => h u (by simp [hu])) _
      | throw e => rfl
      | ub => rfl

theorem onePort_eq {p : Decl} (ok : p.root.Ok) (g : Wrapper) : onePort g p = addAll g (adds p) := by
  unfold onePort adds
  by_cases h : p.root.size = [1]
  · rw [if_pos h, if_pos h]
    have hw : width (rootInfo p.root) = p.root.w := by
      have hs := ok.small
      rw [h] at hs
      simp only [prod, List.foldr_cons, List.foldr_nil, Nat.mul_one, Nat.one_mul] at hs
      simp only [width, rootInfo, h, List.foldl_cons, List.foldl_nil, mul32, u32, Nat.mul_one]
      exact Nat.mod_eq_of_lt hs
    simp only [addAll, hw]
  · rw [if_neg h, if_neg h, flatten_row_major _ ok]
    exact elements_eq ok h _ (fun t ht => (rowMajor_mem _ _).1 ht) g

theorem wrap_eq : ∀ (ps : List Decl), (∀ p ∈ ps, p.root.Ok) → ∀ g : Wrapper,
    wrap g ps = addAll g (ps.flatMap adds)
  | [], _, g => rfl
  | p :: ps, h, g => by
      simp only [wrap, List.flatMap_cons, addAll_append, onePort_eq (h p (by simp))]
      cases addAll g (adds p) with
      | ok g' => simp only [Res.ok_bind]; exact wrap_eq ps (fun q hq => h q (by simp [hq])) g'
      | throw e => rfl
      | ub => rfl

theorem adds_fst (p : Decl) : (adds p).map (·.1) = portsFor p := by
  unfold adds portsFor
  split
  · rfl
  · simp only [List.map_map]; rfl

theorem adds_snd (p : Decl) : (adds p).map (·.2) = connsFor p := by
  unfold adds connsFor
  split
  · rfl
  · simp only [List.map_map]; rfl

/-! ## Theorems -/

/-- The wrapper is refused exactly when two of the flattened names are equal, and otherwise has
exactly the ports and connections of the specification. -/
theorem wrapper_exact_partial (ps : List Decl) (hok : ∀ p ∈ ps, p.root.Ok) :
    (((ps.flatMap portsFor).map (·.name)).Nodup →
      wrapper ps = .ok ⟨ps.flatMap portsFor, ps.flatMap connsFor⟩) ∧
    (¬ ((ps.flatMap portsFor).map (·.name)).Nodup → wrapper ps = .throw .var) := by
  have h := addAll_ok (ps.flatMap adds) ⟨[], []⟩ (by simp)
  have e1 : (ps.flatMap adds).map (·.1) = ps.flatMap portsFor := by
    rw [List.map_flatMap]; simp only [adds_fst]
  have e2 : (ps.flatMap adds).map (·.2) = ps.flatMap connsFor := by
    rw [List.map_flatMap]; simp only [adds_snd]
  rw [e1, e2] at h
  simp only [List.nil_append] at h
  unfold wrapper
  rw [wrap_eq ps hok]
  exact h

theorem below_length : ∀ {t ds : List Nat}, Below t ds → t.length = ds.length
  | [], [], _ => rfl
  | _ :: t, _ :: ds, h => by simp [below_length h.2]
  | [], _ :: _, h => by cases h
  | _ :: _, [], h => by cases h

theorem suffix_head (t : List Nat) : ∀ c, (suffix t).head? = some c → (digitVal 10 c).isSome = false := by
  intro c hc
  cases t with
  | nil => simp [suffix] at hc
  | cons i t =>
      simp only [suffix, List.head?_cons, Option.some.injEq] at hc
      subst hc
      decide

/-- Two different elements of a port never share a name. -/
theorem suffix_inj : ∀ (t u : List Nat), suffix t = suffix u → t = u
  | [], [], _ => rfl
  | [], _ :: _, h => by simp [suffix] at h
  | _ :: _, [], h => by simp [suffix] at h
  | i :: t, j :: u, h => by
      simp only [suffix, List.cons.injEq, true_and] at h
      have h1 := takeDigits_append 10 (printNat 10 i) (suffix t) (printNat_digits (Or.inl rfl) i) (suffix_head t)
      have h2 := takeDigits_append 10 (printNat 10 j) (suffix u) (printNat_digits (Or.inl rfl) j) (suffix_head u)
      rw [h, h2] at h1
      simp only [Prod.mk.injEq] at h1
      have hij : i = j := by
        have hi := readNat_printNat (b := 10) (Or.inl rfl) i
        rw [← h1.1, readNat_printNat (Or.inl rfl)] at hi
        exact (Option.some.inj hi).symm
      rw [hij, suffix_inj t u h1.2.symm]

theorem portsFor_mem {p d : Decl} (h : d ∈ portsFor p) :
    (p.root.size = [1] ∧ d = p) ∨ (p.root.size ≠ [1] ∧ ∃ t, Below t p.root.size ∧ d = elemPort p t) := by
  unfold portsFor at h
  split at h
  · rename_i hs
    simp only [List.mem_singleton] at h
    exact Or.inl ⟨hs, h⟩
  · rename_i hs
    rw [List.mem_map] at h
    obtain ⟨t, ht, rfl⟩ := h
    exact Or.inr ⟨hs, t, (rowMajor_mem _ _).1 ht, rfl⟩

theorem portsFor_nodup (p : Decl) : ((portsFor p).map (·.name)).Nodup := by
  unfold portsFor
  split
  · simp
  · simp only [List.map_map]
    unfold List.Nodup
    rw [List.pairwise_map]
    refine List.Pairwise.imp ?_ (rowMajor_nodup p.root.size)
    intro t u hne he
    simp only [Function.comp] at he
    exact hne (suffix_inj t u (List.append_cancel_left he))

/-- A name a port of the wrapper can have for `p`: the name of `p`, or that followed by `_…`. -/
theorem portsFor_name {p d : Decl} (hok : p.root.Ok) (h : d ∈ portsFor p) :
    ∃ x, d.name = p.name ++ x ∧ (x = [] → p.root.size = [1]) ∧ ∀ c, x.head? = some c → c = '_' ∧ p.root.size ≠ [1] := by
  rcases portsFor_mem h with ⟨hs, rfl⟩ | ⟨hs, t, hb, rfl⟩
  · exact ⟨[], by simp, fun _ => hs, by simp⟩
  · refine ⟨suffix t, rfl, ?_, ?_⟩
    · intro hx
      cases t with
      | nil =>
          have := below_length hb
          exact absurd (List.length_eq_zero_iff.1 this.symm) hok.ne
      | cons i t => simp [suffix] at hx
    · intro c hc
      cases t with
      | nil => simp [suffix] at hc
      | cons i t =>
          simp only [suffix, List.head?_cons, Option.some.injEq] at hc
          exact ⟨hc.symm, hs⟩

/-- No array port's name followed by `_` begins the name of another port. -/
def Clear (ps : List Decl) : Prop :=
  ∀ p ∈ ps, ∀ q ∈ ps, p.root.size ≠ [1] → ∀ x, q.name ≠ p.name ++ '_' :: x

theorem names_apart {ps : List Decl} (hok : ∀ p ∈ ps, p.root.Ok) (hc : Clear ps) {p q : Decl} (hp : p ∈ ps)
    (hq : q ∈ ps) (hne : p.name ≠ q.name) {d e : Decl} (hd : d ∈ portsFor p) (he : e ∈ portsFor q) :
    d.name ≠ e.name := by
  intro heq
  obtain ⟨x, hx, _, hxh⟩ := portsFor_name (hok p hp) hd
  obtain ⟨y, hy, _, hyh⟩ := portsFor_name (hok q hq) he
  rw [hx, hy] at heq
  rcases List.append_eq_append_iff.1 heq with ⟨z, hz1, hz2⟩ | ⟨z, hz1, hz2⟩
  · -- q.name = p.name ++ z, x = z ++ y
    cases z with
    | nil => exact hne (by simpa using hz1.symm)
    | cons c z =>
        obtain ⟨hcc, hs⟩ := hxh c (by simp [hz2])
        subst hcc
        exact hc p hp q hq hs z hz1
  · cases z with
    | nil => exact hne (by simpa using hz1)
    | cons c z =>
        obtain ⟨hcc, hs⟩ := hyh c (by simp [hz2])
        subst hcc
        exact hc q hq p hp hs z hz1

theorem flat_names_nodup : ∀ (ps : List Decl), (∀ p ∈ ps, p.root.Ok) → (ps.map (·.name)).Nodup → Clear ps →
    ((ps.flatMap portsFor).map (·.name)).Nodup
  | [], _, _, _ => by simp
  | p :: ps, hok, hn, hc => by
      rw [List.flatMap_cons, List.map_append, List.nodup_append]
      simp only [List.map_cons, List.nodup_cons] at hn
      refine ⟨portsFor_nodup p, flat_names_nodup ps (fun q hq => hok q (by simp [hq])) hn.2
        (fun a ha b hb => hc a (by simp [ha]) b (by simp [hb])), ?_⟩
      intro a ha b hb hab
      rw [List.mem_map] at ha hb
      obtain ⟨d, hd, rfl⟩ := ha
      obtain ⟨e, he, rfl⟩ := hb
      rw [List.mem_flatMap] at he
      obtain ⟨q, hq, he⟩ := he
      refine names_apart hok hc (by simp) (by simp [hq]) ?_ hd he hab
      intro hpq
      apply hn.1
      have := List.mem_map_of_mem (f := fun x : Decl => x.name) hq
      rw [hpq]
      exact this

/-- With names that cannot collide, there is a wrapper, its port names are distinct. -/
theorem wrapper_accepted_partial (ps : List Decl) (hok : ∀ p ∈ ps, p.root.Ok) (hn : (ps.map (·.name)).Nodup)
    (hc : Clear ps) : ∃ g, wrapper ps = .ok g ∧ (g.ports.map (·.name)).Nodup :=
  have h := flat_names_nodup ps hok hn hc
  ⟨_, (wrapper_exact_partial ps hok).1 h, h⟩

theorem wrapper_is {ps : List Decl} (hok : ∀ p ∈ ps, p.root.Ok) {g : Wrapper} (h : wrapper ps = .ok g) :
    g = ⟨ps.flatMap portsFor, ps.flatMap connsFor⟩ ∧ ((ps.flatMap portsFor).map (·.name)).Nodup := by
  by_cases hn : ((ps.flatMap portsFor).map (·.name)).Nodup
  · have h' := (wrapper_exact_partial ps hok).1 hn
    rw [h] at h'
    exact ⟨Res.ok.inj h', hn⟩
  · have h' := (wrapper_exact_partial ps hok).2 hn
    rw [h] at h'
    cases h'

/-- Every element of every array port is exactly one scalar port of the wrapper, with the direction
and the width of the element. -/
theorem wrapper_elements (ps : List Decl) (hok : ∀ p ∈ ps, p.root.Ok) (g : Wrapper) (hg : wrapper ps = .ok g)
    (p : Decl) (hp : p ∈ ps) (harr : p.root.size ≠ [1]) (t : List Nat) (ht : Below t p.root.size) :
    ∃ d ∈ g.ports, (d.name = p.name ++ suffix t ∧ d.dir = p.dir ∧ d.root.w = p.root.w ∧ d.root.size = [1]) ∧
      ∀ d' ∈ g.ports, d'.name = p.name ++ suffix t → d' = d := by
  obtain ⟨rfl, hn⟩ := wrapper_is hok hg
  have hmem : elemPort p t ∈ ps.flatMap portsFor := by
    rw [List.mem_flatMap]
    refine ⟨p, hp, ?_⟩
    unfold portsFor
    rw [if_neg harr, List.mem_map]
    exact ⟨t, (rowMajor_mem _ _).2 ht, rfl⟩
  refine ⟨elemPort p t, hmem, ⟨rfl, rfl, rfl, rfl⟩, ?_⟩
  intro d' hd' he
  by_cases hdd : d' = elemPort p t
  · exact hdd
  · exfalso
    unfold List.Nodup at hn
    rw [List.pairwise_map] at hn
    obtain ⟨i, hi, hi'⟩ := List.getElem_of_mem hd'
    obtain ⟨j, hj, hj'⟩ := List.getElem_of_mem hmem
    rw [List.pairwise_iff_getElem] at hn
    rcases Nat.lt_trichotomy i j with h | h | h
    · exact hn i j hi hj h (by rw [hi', hj', he]; rfl)
    · subst h; exact hdd (hi'.symm.trans hj')
    · exact hn j i hj hi h (by rw [hi', hj', he]; rfl)

/-- A scalar port is there unchanged. -/
theorem wrapper_scalars (ps : List Decl) (hok : ∀ p ∈ ps, p.root.Ok) (g : Wrapper) (hg : wrapper ps = .ok g)
    (p : Decl) (hp : p ∈ ps) (hs : p.root.size = [1]) : p ∈ g.ports := by
  obtain ⟨rfl, _⟩ := wrapper_is hok hg
  rw [List.mem_flatMap]
  exact ⟨p, hp, by unfold portsFor; rw [if_pos hs]; simp⟩

/-- Nothing else is: each port of the wrapper is a scalar port of the instance or an element of an
array port. -/
theorem wrapper_only (ps : List Decl) (hok : ∀ p ∈ ps, p.root.Ok) (g : Wrapper) (hg : wrapper ps = .ok g)
    (d : Decl) (hd : d ∈ g.ports) :
    d.root.size = [1] ∧ ∃ p ∈ ps, (p.root.size = [1] ∧ d = p) ∨
      (p.root.size ≠ [1] ∧ ∃ t, Below t p.root.size ∧ d.name = p.name ++ suffix t ∧ d.dir = p.dir) := by
  obtain ⟨rfl, _⟩ := wrapper_is hok hg
  rw [List.mem_flatMap] at hd
  obtain ⟨p, hp, hd⟩ := hd
  rcases portsFor_mem hd with ⟨hs, rfl⟩ | ⟨hs, t, hb, rfl⟩
  · exact ⟨hs, _, hp, Or.inl ⟨hs, rfl⟩⟩
  · exact ⟨rfl, p, hp, Or.inr ⟨hs, t, hb, rfl, rfl⟩⟩

/-- The wrapper is transparent: when all its assignments hold, bit `k` of the element at index tuple
`t` of the instance's port is bit `k` of the wrapper's port for that element. -/
theorem wrapper_transparent (ps : List Decl) (hok : ∀ p ∈ ps, p.root.Ok) (g : Wrapper) (hg : wrapper ps = .ok g)
    (inner outer : Str → Nat → Bool) (hs : Settled g inner outer) (p : Decl) (hp : p ∈ ps) :
    (p.root.size = [1] → ∀ k < p.root.w, inner p.name k = outer p.name k) ∧
    (p.root.size ≠ [1] → ∀ t, Below t p.root.size → ∀ k < p.root.w,
      inner p.name (pos t p.root.size * p.root.w + k) = outer (p.name ++ suffix t) k) := by
  obtain ⟨rfl, _⟩ := wrapper_is hok hg
  constructor
  · intro h1 k hk
    have := hs ⟨p.name, 0, p.root.w - 1, p.name, decide (p.dir = .inp)⟩
      (List.mem_flatMap.2 ⟨p, hp, by unfold connsFor; rw [if_pos h1]; simp⟩) k (by simp only; omega)
    simpa using this
  · intro h1 t ht k hk
    have := hs (elemConn p t)
      (List.mem_flatMap.2 ⟨p, hp, by
        unfold connsFor; rw [if_neg h1, List.mem_map]; exact ⟨t, (rowMajor_mem _ _).2 ht, rfl⟩⟩) k
      (by simp only [elemConn]; omega)
    exact this

theorem pos_lt : ∀ {t ds : List Nat}, Below t ds → pos t ds < prod ds
  | [], [], _ => by simp [pos, prod]
  | i :: t, d :: ds, h => by
      have ih := pos_lt h.2
      have hd := h.1
      simp only [pos, prod_cons]
      calc i * prod ds + pos t ds < i * prod ds + prod ds := by omega
        _ = (i + 1) * prod ds := by rw [Nat.succ_mul]
        _ ≤ d * prod ds := Nat.mul_le_mul_right _ hd
  | [], _ :: _, h => by cases h
  | _ :: _, [], h => by cases h

theorem pos_inj : ∀ {t u ds : List Nat}, Below t ds → Below u ds → pos t ds = pos u ds → t = u
  | [], [], [], _, _, _ => rfl
  | i :: t, j :: u, d :: ds, h1, h2, he => by
      have a := pos_lt h1.2
      have b := pos_lt h2.2
      simp only [pos] at he
      have hij : i = j := by
        have e1 : (i * prod ds + pos t ds) / prod ds = i := by
          rw [Nat.mul_comm, Nat.mul_add_div (by omega), Nat.div_eq_of_lt a]; rfl
        have e2 : (j * prod ds + pos u ds) / prod ds = j := by
          rw [Nat.mul_comm, Nat.mul_add_div (by omega), Nat.div_eq_of_lt b]; rfl
        rw [← e1, he, e2]
      subst hij
      rw [pos_inj h1.2 h2.2 (by omega)]
  | [], _ :: _, [], _, h, _ => by cases h
  | _ :: _, [], [], h, _, _ => by cases h
  | _ :: _, _ :: _, [], h, _, _ => by cases h
  | [], _, _ :: _, h, _, _ => by cases h
  | _ :: _, [], _ :: _, _, h, _ => by cases h

theorem pos_onto : ∀ (ds : List Nat), (∀ d ∈ ds, 1 ≤ d) → ∀ n, n < prod ds → ∃ t, Below t ds ∧ pos t ds = n
  | [], _, n, h => ⟨[], trivial, by simp [prod] at h; simp [pos, h]⟩
  | d :: ds, hp, n, h => by
      have hpos := prod_pos (ds := ds) fun x hx => hp x (by simp [hx])
      rw [prod_cons] at h
      obtain ⟨t, ht, he⟩ := pos_onto ds (fun x hx => hp x (by simp [hx])) (n % prod ds) (Nat.mod_lt _ hpos)
      refine ⟨n / prod ds :: t, ⟨?_, ht⟩, ?_⟩
      · rw [Nat.div_lt_iff_lt_mul hpos]; exact h
      · simp only [pos, he]
        rw [Nat.mul_comm]
        exact Nat.div_add_mod n (prod ds)

/-- Every bit of an array port is connected once: to one bit of the port of one element. -/
theorem wrapper_covers (ps : List Decl) (hok : ∀ p ∈ ps, p.root.Ok) (hn : (ps.map (·.name)).Nodup) (g : Wrapper)
    (hg : wrapper ps = .ok g) (p : Decl) (hp : p ∈ ps) (b : Nat) (hb : b < prod p.root.size * p.root.w) :
    ∃ c ∈ g.conns, (c.port = p.name ∧ c.low ≤ b ∧ b ≤ c.high) ∧
      ∀ c' ∈ g.conns, c'.port = p.name → c'.low ≤ b → b ≤ c'.high → c' = c := by
  obtain ⟨rfl, _⟩ := wrapper_is hok hg
  have ok := hok p hp
  have hw := ok.w
  -- connections of a port called like `p` are those of `p`
  have own : ∀ c' ∈ ps.flatMap connsFor, c'.port = p.name → c' ∈ connsFor p := by
    intro c' hc' he
    rw [List.mem_flatMap] at hc'
    obtain ⟨q, hq, hcq⟩ := hc'
    have hqn : q.name = p.name := by
      rw [← he]
      unfold connsFor at hcq
      split at hcq
      · simp only [List.mem_singleton] at hcq; rw [hcq]
      · rw [List.mem_map] at hcq; obtain ⟨t, _, rfl⟩ := hcq; rfl
    have : q = p := by
      by_cases hqp : q = p
      · exact hqp
      · exfalso
        unfold List.Nodup at hn
        rw [List.pairwise_map] at hn
        obtain ⟨i, hi, hi'⟩ := List.getElem_of_mem hq
        obtain ⟨j, hj, hj'⟩ := List.getElem_of_mem hp
        rw [List.pairwise_iff_getElem] at hn
        rcases Nat.lt_trichotomy i j with h | h | h
        · exact hn i j hi hj h (by rw [hi', hj', hqn])
        · subst h; exact hqp (hi'.symm.trans hj')
        · exact hn j i hj hi h (by rw [hi', hj', hqn])
    rw [← this]
    exact hcq
  by_cases h1 : p.root.size = [1]
  · refine ⟨⟨p.name, 0, p.root.w - 1, p.name, decide (p.dir = .inp)⟩,
      List.mem_flatMap.2 ⟨p, hp, by unfold connsFor; rw [if_pos h1]; simp⟩, ⟨rfl, Nat.zero_le _, ?_⟩, ?_⟩
    · rw [h1] at hb
      simp only [prod, List.foldr_cons, List.foldr_nil, Nat.mul_one, Nat.one_mul] at hb
      simp only
      omega
    · intro c' hc' he _ _
      have := own c' hc' he
      unfold connsFor at this
      rw [if_pos h1] at this
      simpa using this
  · obtain ⟨t, ht, he⟩ := pos_onto p.root.size ok.dims (b / p.root.w) (by
      rw [Nat.div_lt_iff_lt_mul hw]; exact hb)
    refine ⟨elemConn p t, List.mem_flatMap.2 ⟨p, hp, by
        unfold connsFor; rw [if_neg h1, List.mem_map]; exact ⟨t, (rowMajor_mem _ _).2 ht, rfl⟩⟩, ⟨rfl, ?_, ?_⟩, ?_⟩
    · simp only [elemConn, he]
      exact Nat.div_mul_le_self b p.root.w
    · simp only [elemConn, he]
      have h1 := Nat.div_add_mod b p.root.w
      have h2 := Nat.mod_lt b hw
      rw [Nat.mul_comm] at h1
      omega
    · intro c' hc' hpn hlo hhi
      have := own c' hc' hpn
      unfold connsFor at this
      rw [if_neg h1, List.mem_map] at this
      obtain ⟨u, hu, rfl⟩ := this
      have hu' := (rowMajor_mem _ _).1 hu
      simp only at hlo hhi
      have hpu : pos u p.root.size = b / p.root.w := by
        symm
        rw [Nat.div_eq_iff (by omega)]
        constructor
        · exact hlo
        · omega
      have : u = t := pos_inj hu' ht (by rw [hpu, he])
      subst this
      rfl

/-- Inputs of the instance are driven from the wrapper, outputs (and inouts) drive the wrapper. -/
theorem wrapper_direction (ps : List Decl) (hok : ∀ p ∈ ps, p.root.Ok) (g : Wrapper) (hg : wrapper ps = .ok g)
    (c : Conn) (hc : c ∈ g.conns) : ∃ p ∈ ps, c.port = p.name ∧ (c.inward = true ↔ p.dir = .inp) ∧
      ∃ d ∈ g.ports, d.name = c.outer ∧ d.dir = p.dir ∧ d.root.w = c.high - c.low + 1 := by
  obtain ⟨rfl, _⟩ := wrapper_is hok hg
  rw [List.mem_flatMap] at hc
  obtain ⟨p, hp, hc⟩ := hc
  have hw := (hok p hp).w
  refine ⟨p, hp, ?_⟩
  unfold connsFor at hc
  split at hc
  · rename_i h1
    simp only [List.mem_singleton] at hc
    subst hc
    refine ⟨rfl, by simp, p, ?_, rfl, rfl, ?_⟩
    · rw [List.mem_flatMap]; exact ⟨p, hp, by unfold portsFor; rw [if_pos h1]; simp⟩
    · simp only; omega
  · rename_i h1
    rw [List.mem_map] at hc
    obtain ⟨t, ht, rfl⟩ := hc
    refine ⟨rfl, by simp, elemPort p t, ?_, rfl, rfl, ?_⟩
    · rw [List.mem_flatMap]
      exact ⟨p, hp, by unfold portsFor; rw [if_neg h1, List.mem_map]; exact ⟨t, ht, rfl⟩⟩
    · simp only [elemPort]; omega

/-! ### Non-vacuity and failures -/

def pa : Decl := ⟨['a'], .inp, ⟨4, [2, 3], false⟩, 0, false⟩
def pb : Decl := ⟨['b'], .out, ⟨8, [1], false⟩, 0, true⟩

example : (∀ p ∈ [pa, pb], p.root.Ok) ∧ ([pa, pb].map (·.name)).Nodup ∧ Clear [pa, pb] := by
  refine ⟨?_, by decide, ?_⟩
  · intro p hp
    simp only [List.mem_cons, List.not_mem_nil, or_false] at hp
    rcases hp with rfl | rfl <;> exact ⟨by decide, by decide, by decide, by decide, by decide⟩
  · intro p hp q hq _ x he
    have := congrArg List.length he
    simp only [List.mem_cons, List.not_mem_nil, or_false] at hp hq
    rcases hp with rfl | rfl <;> rcases hq with rfl | rfl <;> simp [pa, pb] at this

example : ∃ g, wrapper [pa, pb] = .ok g ∧
    g.ports.map (·.name) = [['a','_','0','_','0'], ['a','_','0','_','1'], ['a','_','0','_','2'],
      ['a','_','1','_','0'], ['a','_','1','_','1'], ['a','_','1','_','2'], ['b']] ∧
    g.conns[4]? = some ⟨['a'], 16, 19, ['a','_','1','_','1'], true⟩ := by
  refine ⟨_, rfl, by decide, by decide⟩

/-- An array port called `a` and a scalar called `a_0` cannot be wrapped. -/
theorem wrapper_refused :
    wrapper [⟨['a'], .inp, ⟨4, [2], false⟩, 0, false⟩, ⟨['a','_','0'], .inp, ⟨4, [1], false⟩, 0, false⟩] =
      .throw .var := by decide

/-- The elements of a signed array, or of an array of clocks, are unsigned data ports. -/
theorem wrapper_sign_lost (ps : List Decl) (hok : ∀ p ∈ ps, p.root.Ok) (g : Wrapper) (hg : wrapper ps = .ok g)
    (p : Decl) (hp : p ∈ ps) (harr : p.root.size ≠ [1]) (t : List Nat) (ht : Below t p.root.size) :
    ∀ d ∈ g.ports, d.name = p.name ++ suffix t → d.signed = false ∧ d.type = 0 := by
  intro d hd hn
  obtain ⟨d0, hd0, _, hu⟩ := wrapper_elements ps hok g hg p hp harr t ht
  obtain ⟨rfl, _⟩ := wrapper_is hok hg
  have hmem : elemPort p t ∈ ps.flatMap portsFor := by
    rw [List.mem_flatMap]
    refine ⟨p, hp, ?_⟩
    unfold portsFor
    rw [if_neg harr, List.mem_map]
    exact ⟨t, (rowMajor_mem _ _).2 ht, rfl⟩
  rw [hu d hd hn, ← hu _ hmem rfl]
  exact ⟨rfl, rfl⟩

/-- An inout port is only driven outwards. -/
theorem wrapper_inout_wrong (ps : List Decl) (hok : ∀ p ∈ ps, p.root.Ok) (hn : (ps.map (·.name)).Nodup)
    (g : Wrapper) (hg : wrapper ps = .ok g) (p : Decl) (hp : p ∈ ps) (hd : p.dir = .inout) :
    ∀ c ∈ g.conns, c.port = p.name → c.inward = false := by
  intro c hc he
  obtain ⟨q, hq, hqn, hi, _⟩ := wrapper_direction ps hok g hg c hc
  have : q = p := by
    by_cases hqp : q = p
    · exact hqp
    · exfalso
      unfold List.Nodup at hn
      rw [List.pairwise_map] at hn
      obtain ⟨i, hi, hi'⟩ := List.getElem_of_mem hq
      obtain ⟨j, hj, hj'⟩ := List.getElem_of_mem hp
      rw [List.pairwise_iff_getElem] at hn
      rcases Nat.lt_trichotomy i j with h | h | h
      · exact hn i j hi hj h (by rw [hi', hj', ← hqn, he])
      · subst h; exact hqp (hi'.symm.trans hj')
      · exact hn j i hj hi h (by rw [hi', hj', ← hqn, he])
  subst this
  cases h : c.inward with
  | false => rfl
  | true =>
      have := hi.1 h
      rw [hd] at this
      cases this

/-- A port declared as an array of one element stays an array. -/
theorem wrapper_unit_array_wrong : ∃ g, wrapper [⟨['a'], .inp, ⟨4, [1], true⟩, 0, false⟩] = .ok g ∧
    g.ports = [⟨['a'], .inp, ⟨4, [1], true⟩, 0, false⟩] := ⟨_, rfl, rfl⟩

theorem not_FlattenClaim : ¬ FlattenClaim := by
  intro h
  obtain ⟨g, hg, _⟩ := h [⟨['a'], .inp, ⟨4, [2], false⟩, 0, false⟩, ⟨['a','_','0'], .inp, ⟨4, [1], false⟩, 0, false⟩]
    (by
      intro p hp
      simp only [List.mem_cons, List.not_mem_nil, or_false] at hp
      rcases hp with rfl | rfl <;> exact ⟨by decide, by decide, by decide, by decide, by decide⟩) (by decide)
  rw [wrapper_refused] at hg
  cases hg

end Kratos.Flatten
