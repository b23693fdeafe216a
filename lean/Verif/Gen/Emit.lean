import Verif.Gen.Strategy

/-!
# C111: every instance has its module in the emitted text, once

The end of the flow: hashing (C109) and uniquification (C43), then `generate_verilog_no_pkg`
(src/codegen.cc:1388-1416) with `UniqueGeneratorVisitor` (src/codegen.cc:1353-1367) over
`IRVisitor::visit_generator_root` (src/ir.cc:94-100).  The text of one module is an argument.
-/

namespace Kratos.Emit

open Kratos.Gen Kratos.Graph Kratos.Strategy

/-! ## Model -/

/-- The order of `visit_generator_root` (src/ir.cc:94-100): a generator, then its instances; a generator reached twice
is visited twice.  The fuel bounds the depth of the recursion (a design that contains itself would not end). -/
def preorder (kids : Nat → List Nat) : Nat → Nat → List Nat
  | 0, _ => []
  | f + 1, g => g :: (kids g).flatMap (preorder kids f)

/-- `UniqueGeneratorVisitor::visit` (src/codegen.cc:1358-1364). -/
def take1 (c : Ctx) (m : Map Name Nat) (g : Nat) : Map Name Nat :=
  if m.has (c.name g) then m
  else if c.ext g then m
  else m.emplace (c.name g) g

/-- `generator_map()` after the visit. -/
def unique (c : Ctx) (l : List Nat) : Map Name Nat := l.foldl (take1 c) []

/-- `generate_verilog_no_pkg` (src/codegen.cc:1388-1416): the tasks write no shared state, so the schedule of the pool
does not matter; the result is indexed by the name of the module. -/
def generate {T : Type} (text : Nat → T) (c : Ctx) (kids : Nat → List Nat) (fuel root : Nat) : List (Name × T) :=
  (unique c (preorder kids fuel root)).map fun e => (e.1, text e.2)

/-! ## Specification -/

/-- The module `n` of the result is the text of generator `g`. -/
def Defines {T : Type} (text : Nat → T) (out : List (Name × T)) (n : Name) (g : Nat) : Prop := (n, text g) ∈ out

/-- What a user needs of the result, for a design with `name` and `ext` after the flow. `same g g'`: the two generators
carried one name before and their bodies have equal hashes (or they are one). -/
structure Complete {T : Type} (text : Nat → T) (tree : Nat → Prop) (ext : Nat → Bool) (name : Nat → Name)
    (same : Nat → Nat → Prop) (out : List (Name × T)) : Prop where
  /-- no module is defined twice -/
  once : (out.map (·.1)).Nodup
  /-- every instance finds its module, with the body of that instance -/
  own : ∀ g, tree g → ext g = false → ∃ g', tree g' ∧ same g' g ∧ Defines text out (name g) g'
  /-- nothing else is emitted -/
  only : ∀ e ∈ out, ∃ g, tree g ∧ ext g = false ∧ e = (name g, text g)
  /-- no external module is defined again -/
  extern : ∀ g, tree g → ext g = true → ∀ e ∈ out, e.1 ≠ name g

/-- The two generators had one name and equal bodies. -/
def Same (E : Env) (ms : Map Nat Nat) (g' g : Nat) : Prop :=
  g' = g ∨ (E.c.name g' = E.c.name g ∧ ∃ v, E.body g' ms.find = .ok v ∧ E.body g ms.find = .ok v)

/-- The design was hashed by one of the strategies. -/
inductive Hashed (E : Env) (kids : Nat → List Nat) (start : Map Nat Nat) : Map Nat Nat → Prop
  | seq {order : List Nat} {ms : Map Nat Nat} : BottomUp kids E.root order → sequential E order start = .ok ms →
      Hashed E kids start ms
  | par {idx ord : List (Nat × Nat)} {ms : Map Nat Nat} : (idx.map (·.1)).Nodup →
      (∀ g d, (g, d) ∈ idx ↔ Below kids E.root g d) → ord.Perm idx → parallel E (levels idx ord) start = .ok ms →
      Hashed E kids start ms

/-- C111 in full. -/
def EmitClaim : Prop :=
  ∀ (T : Type) (text : Nat → T) kw E kids insts reg start ms tracked (by_ : List Nat → List Nat) names c' fuel,
    Design E kids insts → NoExternalInst E insts → CReach kw (fun c reg o => o.safe c reg) E.c reg →
    (∀ g, reg g = true → E.c.name g ≠ []) → (∀ g d, Below kids E.root g d → start.find g = none) →
    Hashed E kids start ms → (∀ l, (by_ l).Perm l) → names.Perm E.c.modules.keys →
    uniquify ms tracked by_ names E.c = .ok c' → (∀ g d, Below kids E.root g d → d < fuel) →
    Complete text (fun g => ∃ d, Below kids E.root g d) c'.ext c'.name (Same E ms) (generate text c' kids fuel E.root)

/-! ## Lemmas -/

/-- The generators at depth at most `n` under `g`, counted from `g`. -/
theorem below_cons {kids : Nat → List Nat} {g k x : Nat} {d : Nat} (hk : k ∈ kids g) (h : Below kids k x d) :
    Below kids g x (d + 1) := by
  induction h with
  | top => exact .step .top hk
  | step _ hc ih => exact .step ih hc

theorem below_split {kids : Nat → List Nat} {g x d : Nat} (h : Below kids g x d) :
    (x = g ∧ d = 0) ∨ ∃ k ∈ kids g, ∃ d', d = d' + 1 ∧ Below kids k x d' := by
  induction h with
  | top => exact Or.inl ⟨rfl, rfl⟩
  | step h hc ih =>
    right
    rcases ih with ⟨rfl, rfl⟩ | ⟨k, hk, d', rfl, hb⟩
    · exact ⟨_, hc, 0, rfl, .top⟩
    · exact ⟨k, hk, d' + 1, rfl, .step hb hc⟩

theorem mem_preorder (kids : Nat → List Nat) : ∀ (f g x : Nat), x ∈ preorder kids f g ↔ ∃ d, d < f ∧ Below kids g x d := by
  intro f
  induction f with
  | zero => intro g x; simp [preorder]
  | succ f ih =>
    intro g x
    simp only [preorder, List.mem_cons, List.mem_flatMap, ih]
    constructor
    · rintro (rfl | ⟨k, hk, d, hd, hb⟩)
      · exact ⟨0, by omega, .top⟩
      · exact ⟨d + 1, by omega, below_cons hk hb⟩
    · rintro ⟨d, hd, hb⟩
      rcases below_split hb with ⟨rfl, _⟩ | ⟨k, hk, d', rfl, hb'⟩
      · exact Or.inl rfl
      · exact Or.inr ⟨k, hk, d', by omega, hb'⟩

theorem foldl_take1 (c : Ctx) : ∀ (l : List Nat) (m : Map Name Nat), m.keys.Nodup →
    ((l.foldl (take1 c) m).keys.Nodup ∧
      (∀ e ∈ l.foldl (take1 c) m, e ∈ m ∨ (e.2 ∈ l ∧ c.ext e.2 = false ∧ e.1 = c.name e.2)) ∧
      (∀ e ∈ m, e ∈ l.foldl (take1 c) m) ∧
      ∀ g ∈ l, c.ext g = false → (l.foldl (take1 c) m).has (c.name g) = true) := by
  intro l
  induction l with
  | nil => intro m hm; exact ⟨hm, fun e he => Or.inl he, fun e he => he, by simp⟩
  | cons g l ih =>
    intro m hm
    rw [List.foldl_cons]
    have hnd : (take1 c m g).keys.Nodup := by
      unfold take1
      split
      · exact hm
      · split
        · exact hm
        · exact Map.nodup_emplace hm _ _
    obtain ⟨h1, h2, h3, h4⟩ := ih (take1 c m g) hnd
    have hmem : ∀ e ∈ take1 c m g, e ∈ m ∨ (e.2 = g ∧ c.ext g = false ∧ e.1 = c.name g) := by
      intro e he
      unfold take1 at he
      split at he
      · exact Or.inl he
      · split at he
        · exact Or.inl he
        · next hx =>
          rcases Map.mem_emplace he with h | h
          · exact Or.inl h
          · rw [h.1]
            exact Or.inr ⟨rfl, by simpa using hx, rfl⟩
    have hsub : ∀ e ∈ m, e ∈ take1 c m g := by
      intro e he
      unfold take1
      split
      · exact he
      · split
        · exact he
        · unfold Map.emplace
          split
          · exact he
          · exact List.mem_append_left _ he
    refine ⟨h1, ?_, fun e he => h3 e (hsub e he), ?_⟩
    · intro e he
      rcases h2 e he with h | ⟨a, b, d⟩
      · rcases hmem e h with h | ⟨a, b, d⟩
        · exact Or.inl h
        · exact Or.inr ⟨by rw [a]; exact List.mem_cons_self, by rw [a]; exact b, by rw [a]; exact d⟩
      · exact Or.inr ⟨List.mem_cons_of_mem _ a, b, d⟩
    · intro x hx he
      rcases List.mem_cons.1 hx with rfl | hx
      · -- the entry is there after this step, and stays
        have hkey : (take1 c m x).has (c.name x) = true := by
          unfold take1
          split
          · next h => exact h
          · rw [if_neg (by rw [he]; decide)]
            unfold Map.has
            rw [Map.find_emplace, if_pos rfl]
            cases m.find (c.name x) <;> rfl
        rw [Map.has_iff, Map.mem_keys] at hkey
        obtain ⟨v, hv⟩ := hkey
        rw [Map.has_iff, Map.mem_keys]
        exact ⟨v, h3 _ hv⟩
      · exact h4 x hx he

theorem uniquify_ext {hash : Map Nat Nat} {tracked : Option (Nat → Bool)} {by_ : List Nat → List Nat} :
    ∀ (names : List Name) (c c' : Ctx), uniquify hash tracked by_ names c = .ok c' → c'.ext = c.ext := by
  intro names
  induction names with
  | nil => intro c c' h; simp only [uniquify, Res.ok.injEq] at h; rw [h]
  | cons n ns ih =>
    intro c c' h
    simp only [uniquify, Res.bind_eq_ok] at h
    obtain ⟨c1, h1, h2⟩ := h
    rw [ih c1 c' h2]
    unfold uniqName at h1
    dsimp only at h1
    split at h1
    · cases h1; rfl
    · exact uniqInsts_ext _ _ _ _ _ _ _ h1

theorem hashed_result {E : Env} {kids insts : Nat → List Nat} (hd : Design E kids insts) (hx : NoExternalInst E insts)
    {start ms : Map Nat Nat} (hs : ∀ g d, Below kids E.root g d → start.find g = none) (h : Hashed E kids start ms) :
    Result E kids start ms := by
  cases h with
  | seq ho h1 =>
    obtain ⟨m, h2, r⟩ := sequential_spec hd hx ho hs
    rw [h1] at h2
    cases h2
    exact r
  | par hi hb hp h1 =>
    obtain ⟨m, h2, r⟩ := parallel_spec hd hi hb hp hs
    rw [h1] at h2
    cases h2
    exact r

/-! ## Theorems -/

/-- C111, partial: for every design in which no external module has the name of one of the design's own modules, hashed
by either strategy, after uniquification in any order: no module is defined twice, every instance that is not
external finds a module of its name, taken from a generator that had the same name and whose body has the same hash,
nothing else is emitted, and no external module is defined.  Missing, and false: `external_clash`; clones are excluded
by `Design` (see `clone_left_behind`). -/
theorem emit_partial {T : Type} (text : Nat → T) (kw : Name → Bool) (E : Env) (kids insts : Nat → List Nat) (reg : Nat → Bool)
    (start ms : Map Nat Nat) (tracked : Option (Nat → Bool)) (by_ : List Nat → List Nat) (names : List Name) (c' : Ctx) (fuel : Nat)
    (hd : Design E kids insts) (hx : NoExternalInst E insts) (hr : CReach kw (fun c reg o => o.safe c reg) E.c reg)
    (hne : ∀ g, reg g = true → E.c.name g ≠ []) (hs : ∀ g d, Below kids E.root g d → start.find g = none)
    (hh : Hashed E kids start ms) (hby : ∀ l, (by_ l).Perm l) (hnames : names.Perm E.c.modules.keys)
    (hu : uniquify ms tracked by_ names E.c = .ok c') (hf : ∀ g d, Below kids E.root g d → d < fuel)
    (hsep : ∀ x d g d', Below kids E.root x d → E.c.ext x = true → Below kids E.root g d' → E.c.ext g = false →
      reg x = true ∧ E.c.name g ≠ E.c.name x) :
    Complete text (fun g => ∃ d, Below kids E.root g d) c'.ext c'.name (Same E ms) (generate text c' kids fuel E.root) := by
  have hres := hashed_result hd hx hs hh
  have hext : c'.ext = E.c.ext := uniquify_ext names _ _ hu
  have hidx := index_partial kw E.c reg hr
  obtain ⟨u1, u2, u3, -, -⟩ := uniquify_names_partial kw ms tracked by_ hby E.c reg hr hne names hnames c' hu
  obtain ⟨f1, f2, -, f4⟩ := foldl_take1 c' (preorder kids fuel E.root) [] (by simp [Map.keys])
  have takes : ∀ g d, Below kids E.root g d → E.c.ext g = false → ∃ v, Takes E.c reg ms g v := by
    intro g d hb he
    obtain ⟨v, hv, _⟩ := hres.inside g d hb he
    exact ⟨v, ((hidx _ _).1 (hd.known g d hb he).1).1, he, hv⟩
  have entry : ∀ e ∈ unique c' (preorder kids fuel E.root),
      (∃ d, Below kids E.root e.2 d) ∧ E.c.ext e.2 = false ∧ e.1 = c'.name e.2 := by
    intro e he
    rcases f2 e he with h | ⟨a, b, d⟩
    · cases h
    · rw [mem_preorder] at a
      obtain ⟨dd, _, hb⟩ := a
      exact ⟨⟨dd, hb⟩, by rw [← hext]; exact b, d⟩
  refine ⟨?_, ?_, ?_, ?_⟩
  · unfold generate
    rw [List.map_map]
    exact f1
  · rintro g ⟨d, hb⟩ he
    rw [hext] at he
    have hk := f4 g ((mem_preorder _ _ _ _).2 ⟨d, hf g d hb, hb⟩) (by rw [hext]; exact he)
    rw [Map.has_iff, Map.mem_keys] at hk
    obtain ⟨g', hg'⟩ := hk
    obtain ⟨⟨d', hb'⟩, he', hn'⟩ := entry _ hg'
    refine ⟨g', ⟨d', hb'⟩, ?_, ?_⟩
    · obtain ⟨v, hv⟩ := takes g d hb he
      obtain ⟨v', hv'⟩ := takes g' d' hb' he'
      obtain ⟨e1, e2⟩ := (u1 g' v' g v hv' hv).1 hn'.symm
      by_cases e : g' = g
      · exact Or.inl e
      · right
        refine ⟨e1, v, ?_, ?_⟩
        · obtain ⟨w, hw, hw'⟩ := hres.inside g' d' hb' he'
          have : w = v := by
            have := hv'.2.2
            rw [hw] at this
            rw [Option.some.inj this, e2]
          rw [← this, ← hw']
          unfold hashGen
          rw [if_neg]
          intro hq
          have := (unique_iff hd hb' he').1 hq g (by rw [e1]; exact (hd.known g d hb he).1) he (hd.known g d hb he).2
          exact e this.symm
        · obtain ⟨w, hw, hw'⟩ := hres.inside g d hb he
          have : w = v := by
            have := hv.2.2
            rw [hw] at this
            exact Option.some.inj this
          rw [← this, ← hw']
          unfold hashGen
          rw [if_neg]
          intro hq
          exact e ((unique_iff hd hb he).1 hq g' (by rw [← e1]; exact (hd.known g' d' hb' he').1) he' (hd.known g' d' hb' he').2)
    · exact List.mem_map.2 ⟨_, hg', rfl⟩
  · intro e he
    obtain ⟨a, ha, rfl⟩ := List.mem_map.1 he
    obtain ⟨h1, h2, h3⟩ := entry a ha
    exact ⟨a.2, h1, by rw [hext]; exact h2, by rw [h3]⟩
  · rintro x ⟨d, hb⟩ hxe e he heq
    rw [hext] at hxe
    obtain ⟨a, ha, rfl⟩ := List.mem_map.1 he
    obtain ⟨⟨d', hb'⟩, h2, h3⟩ := entry a ha
    obtain ⟨s1, s2⟩ := hsep x d a.2 d' hb hxe hb' h2
    have hkeep : c'.name x = E.c.name x := by
      apply u3
      rintro ⟨h, ht⟩
      rw [ht.2.1] at hxe
      cases hxe
    dsimp only at heq
    rw [hkeep, h3] at heq
    obtain ⟨v, hv⟩ := takes a.2 d' hb' h2
    by_cases hch : c'.name a.2 = E.c.name a.2
    · exact s2 (hch ▸ heq)
    · exact u2 a.2 v hv hch x s1 heq.symm

/-- The emitted modules refer only to emitted or external ones: every instance in an emitted generator. -/
theorem closed_partial {T : Type} {text : Nat → T} {kids : Nat → List Nat} {root : Nat} {ext : Nat → Bool} {name : Nat → Name}
    {same : Nat → Nat → Prop} {out : List (Name × T)}
    (h : Complete text (fun g => ∃ d, Below kids root g d) ext name same out) :
    ∀ e ∈ out, ∃ g, e = (name g, text g) ∧ ∀ k ∈ kids g, ext k = false → ∃ t, (name k, t) ∈ out := by
  intro e he
  obtain ⟨g, ⟨d, hb⟩, _, rfl⟩ := h.only e he
  refine ⟨g, rfl, ?_⟩
  intro k hk hx
  obtain ⟨g', _, _, h2⟩ := h.own k ⟨d + 1, .step hb hk⟩ hx
  exact ⟨_, h2⟩

/-! ## Witnesses -/

def nT : Name := ['t']

/-- Generator 0 contains 1, a module `a` of the design, and 2, an external module of the same name. -/
def ops3 : List COp := [.create nT, .create nA, .create nA, .setExternal 2 true]

def ctxX : Ctx × (Nat → Bool) := cops noKw emptyCtx (fun _ => false) ops3

theorem ctxX_reach : CReach noKw (fun c reg o => o.safe c reg) ctxX.1 ctxX.2 := by
  refine creach_cops _ emptyCtx (fun _ => false) CReach.init ?_ ?_
  · intro c reg o ho
    simp only [ops3, List.mem_cons, List.not_mem_nil, or_false] at ho
    rcases ho with rfl | rfl | rfl | rfl <;> trivial
  · intro i hi
    match i, hi with
    | 0, _ => trivial
    | 1, _ => trivial
    | 2, _ => trivial
    | 3, _ => show 2 < _; decide +kernel

def kidsX : Nat → List Nat
  | 0 => [1, 2]
  | _ => []

def envX : Env := ⟨ctxX.1, 0, fun g => g == 0, fun _ => false, fun n => n.length, fun g => g, fun _ _ => .ok 9⟩

theorem belowX {g d : Nat} (h : Below kidsX 0 g d) : (g = 0 ∧ d = 0) ∨ ((g = 1 ∨ g = 2) ∧ d = 1) := by
  induction h with
  | top => simp
  | step _ hc ih => rcases ih with ⟨rfl, rfl⟩ | ⟨rfl | rfl, rfl⟩ <;> simp [kidsX] at hc <;> simp [hc]

theorem designX : Design envX kidsX (fun _ => []) := by
  refine ⟨fun n => (idx_reach ctxX_reach).nodup n, ?_, ?_, fun g k hk => (by cases hk), fun _ _ _ _ => rfl, fun _ _ _ => ⟨9, rfl⟩⟩
  · intro g d h he
    rcases belowX h with ⟨rfl, _⟩ | ⟨rfl | rfl, _⟩
    · exact ⟨by decide +kernel, by decide +kernel⟩
    · exact ⟨by decide +kernel, by decide +kernel⟩
    · exact absurd he (by decide +kernel)
  · intro g d h hg
    rcases belowX h with ⟨rfl, _⟩ | ⟨rfl | rfl, _⟩
    · exact absurd rfl hg
    all_goals rfl

theorem bottomX : BottomUp kidsX 0 [1, 2, 0] := by
  refine ⟨by decide, fun g => ⟨?_, ?_⟩, ?_⟩
  · intro hg
    simp only [List.mem_cons, List.not_mem_nil, or_false] at hg
    rcases hg with rfl | rfl | rfl
    · exact ⟨1, .step .top (by simp [kidsX])⟩
    · exact ⟨1, .step .top (by simp [kidsX])⟩
    · exact ⟨0, .top⟩
  · rintro ⟨d, h⟩
    rcases belowX h with ⟨rfl, _⟩ | ⟨rfl | rfl, _⟩ <;> decide
  · intro a g b e c hc
    match a, e with
    | [], e => simp at e; rw [← e.1] at hc; simp [kidsX] at hc
    | [_], e => simp at e; rw [← e.2.1] at hc; simp [kidsX] at hc
    | [_, _], e => simp at e; obtain ⟨rfl, rfl, rfl, _⟩ := e; simp [kidsX] at hc; simp [hc]
    | _ :: _ :: _ :: r, e => simp at e

/-- The hashes, the names and the modules of the witness: the external instance 2 is called like the emitted module. -/
theorem external_clash : sequential envX [1, 2, 0] [] = .ok [(0, 1), (1, 1)] ∧
    ∃ c', uniquify [(0, 1), (1, 1)] none id ctxX.1.modules.keys ctxX.1 = .ok c' ∧ c'.ext 2 = true ∧ c'.name 2 = nA ∧
      generate (fun g => g) c' kidsX 2 0 = [(nT, 0), (nA, 1)] := by
  refine ⟨by decide +kernel, ctxX.1, ?_, by decide +kernel, by decide +kernel, by decide +kernel⟩
  have : ctxX.1.modules.keys = [nT, nA] := by decide +kernel
  rw [this]
  have h1 : uniqName [(0, 1), (1, 1)] none id ctxX.1 nT = .ok ctxX.1 := by
    unfold uniqName
    dsimp only
    rw [if_pos (by decide +kernel)]
  have h2 : uniqName [(0, 1), (1, 1)] none id ctxX.1 nA = .ok ctxX.1 := by
    unfold uniqName
    dsimp only
    rw [if_pos (by decide +kernel)]
  simp only [uniquify, h1, h2, Res.ok_bind]

theorem not_EmitClaim : ¬ EmitClaim := by
  intro h
  obtain ⟨h1, c', h2, h3, h4, h5⟩ := external_clash
  have hc := h Nat (fun g => g) noKw envX kidsX (fun _ => []) ctxX.2 [] [(0, 1), (1, 1)] none id ctxX.1.modules.keys c' 2
    designX (fun _ _ k hk => (by cases hk)) ctxX_reach (by
      intro g hg
      have hb := (idx_reach ctxX_reach).bound g hg
      have : ctxX.1.next = 3 := by decide +kernel
      rw [this] at hb
      show ctxX.1.name g ≠ []
      match g, hb with
      | 0, _ => decide +kernel
      | 1, _ => decide +kernel
      | 2, _ => decide +kernel) (fun _ _ _ => rfl) (.seq bottomX h1) (fun l => List.Perm.refl l) (List.Perm.refl _) h2 (by
      intro g d hb
      rcases belowX hb with ⟨_, rfl⟩ | ⟨_, rfl⟩ <;> omega)
  have := hc.extern 2 ⟨1, .step .top (by simp [envX, kidsX])⟩ h3 (nA, 1) (by
    show (nA, 1) ∈ generate (fun g => g) c' kidsX 2 0
    rw [h5]
    simp)
  exact this h4.symm

/-- Two different modules `a` and an external module `x` under a top: the hypotheses of `emit_partial` hold. -/
def ops4 : List COp := [.create nT, .create nA, .create nA, .create ['x'], .setExternal 3 true]

def ctxY : Ctx × (Nat → Bool) := cops noKw emptyCtx (fun _ => false) ops4

theorem ctxY_reach : CReach noKw (fun c reg o => o.safe c reg) ctxY.1 ctxY.2 := by
  refine creach_cops _ emptyCtx (fun _ => false) CReach.init ?_ ?_
  · intro c reg o ho
    simp only [ops4, List.mem_cons, List.not_mem_nil, or_false] at ho
    rcases ho with rfl | rfl | rfl | rfl | rfl <;> trivial
  · intro i hi
    match i, hi with
    | 0, _ => trivial
    | 1, _ => trivial
    | 2, _ => trivial
    | 3, _ => trivial
    | 4, _ => show 3 < _; decide +kernel

def kidsY : Nat → List Nat
  | 0 => [1, 2, 3]
  | _ => []

def envY : Env := ⟨ctxY.1, 0, fun g => g == 0, fun _ => false, fun n => n.length, fun g => g, fun g _ => .ok (20 + g)⟩

theorem belowY {g d : Nat} (h : Below kidsY 0 g d) : (g = 0 ∧ d = 0) ∨ ((g = 1 ∨ g = 2 ∨ g = 3) ∧ d = 1) := by
  induction h with
  | top => simp
  | step _ hc ih => rcases ih with ⟨rfl, rfl⟩ | ⟨rfl | rfl | rfl, rfl⟩ <;> simp [kidsY] at hc <;> simp [hc]

theorem designY : Design envY kidsY (fun _ => []) := by
  refine ⟨fun n => (idx_reach ctxY_reach).nodup n, ?_, ?_, fun g k hk => (by cases hk), fun _ _ _ _ => rfl, fun g _ _ => ⟨20 + g, rfl⟩⟩
  · intro g d h he
    rcases belowY h with ⟨rfl, _⟩ | ⟨rfl | rfl | rfl, _⟩
    · exact ⟨by decide +kernel, by decide +kernel⟩
    · exact ⟨by decide +kernel, by decide +kernel⟩
    · exact ⟨by decide +kernel, by decide +kernel⟩
    · exact absurd he (by decide +kernel)
  · intro g d h hg
    rcases belowY h with ⟨rfl, _⟩ | ⟨rfl | rfl | rfl, _⟩
    · exact absurd rfl hg
    all_goals rfl

theorem bottomY : BottomUp kidsY 0 [1, 2, 3, 0] := by
  refine ⟨by decide, fun g => ⟨?_, ?_⟩, ?_⟩
  · intro hg
    simp only [List.mem_cons, List.not_mem_nil, or_false] at hg
    rcases hg with rfl | rfl | rfl | rfl
    · exact ⟨1, .step .top (by simp [kidsY])⟩
    · exact ⟨1, .step .top (by simp [kidsY])⟩
    · exact ⟨1, .step .top (by simp [kidsY])⟩
    · exact ⟨0, .top⟩
  · rintro ⟨d, h⟩
    rcases belowY h with ⟨rfl, _⟩ | ⟨rfl | rfl | rfl, _⟩ <;> decide
  · intro a g b e c hc
    match a, e with
    | [], e => simp at e; rw [← e.1] at hc; simp [kidsY] at hc
    | [_], e => simp at e; rw [← e.2.1] at hc; simp [kidsY] at hc
    | [_, _], e => simp at e; rw [← e.2.2.1] at hc; simp [kidsY] at hc
    | [_, _, _], e => simp at e; obtain ⟨rfl, rfl, rfl, rfl, _⟩ := e; simp [kidsY] at hc; simp [hc]
    | _ :: _ :: _ :: _ :: r, e => simp at e

example : ∃ ms c', Hashed envY kidsY [] ms ∧ uniquify ms none id ctxY.1.modules.keys ctxY.1 = .ok c' ∧
    Complete (fun g => g) (fun g => ∃ d, Below kidsY 0 g d) c'.ext c'.name (Same envY ms) (generate (fun g => g) c' kidsY 2 0) ∧
    (generate (fun g => g) c' kidsY 2 0).length = 3 := by
  have h1 : sequential envY [1, 2, 3, 0] [] = .ok [(0, 1), (1, 21), (2, 22)] := by decide +kernel
  have hl : (uniquify [(0, 1), (1, 21), (2, 22)] none id ctxY.1.modules.keys ctxY.1).map
      (fun c => (generate (fun g => g) c kidsY 2 0).length) = .ok 3 := by decide +kernel
  cases hu : uniquify [(0, 1), (1, 21), (2, 22)] none id ctxY.1.modules.keys ctxY.1 with
  | throw e => rw [hu] at hl; cases hl
  | ub => rw [hu] at hl; cases hl
  | ok c' =>
    rw [hu] at hl
    have hlt : ∀ g, ctxY.2 g = true → g < 4 := by
      intro g hg
      have hb := (idx_reach ctxY_reach).bound g hg
      have : ctxY.1.next = 4 := by decide +kernel
      rwa [this] at hb
    refine ⟨_, c', .seq bottomY h1, hu, ?_, Res.ok.inj hl⟩
    refine emit_partial (fun g => g) noKw envY kidsY (fun _ => []) ctxY.2 [] _ none id ctxY.1.modules.keys c' 2 designY
      (fun _ _ k hk => (by cases hk)) ctxY_reach ?_ (fun _ _ _ => rfl) (.seq bottomY h1) (fun l => List.Perm.refl l)
      (List.Perm.refl _) hu ?_ ?_
    · intro g hg
      show ctxY.1.name g ≠ []
      match g, hlt g hg with
      | 0, _ => decide +kernel
      | 1, _ => decide +kernel
      | 2, _ => decide +kernel
      | 3, _ => decide +kernel
    · intro g d hb
      rcases belowY hb with ⟨_, rfl⟩ | ⟨_, rfl⟩ <;> omega
    · intro x d g d' hb hx hb' hg
      rcases belowY hb with ⟨rfl, _⟩ | ⟨rfl | rfl | rfl, _⟩
      · exact absurd hx (by decide +kernel)
      · exact absurd hx (by decide +kernel)
      · exact absurd hx (by decide +kernel)
      · refine ⟨by decide +kernel, ?_⟩
        rcases belowY hb' with ⟨rfl, _⟩ | ⟨rfl | rfl | rfl, _⟩
        · decide +kernel
        · decide +kernel
        · decide +kernel
        · exact absurd hg (by decide +kernel)

end Kratos.Emit
